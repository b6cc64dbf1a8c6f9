import Verif.Model.Session
import Verif.Props.State

/-! # Lemmas about update sessions -/

namespace Gocfl

theorem andThen_ok (o : Obj) (f : Obj → Out) : (ok o).andThen f = f o := rfl
theorem andThen_none {x : Out} (h : x.err = none) (f : Obj → Out) : x.andThen f = f x.obj := by
  unfold Out.andThen; rw [h]
theorem andThen_some {x : Out} {e : GoErr} (h : x.err = some e) (f : Obj → Out) : x.andThen f = x := by
  unfold Out.andThen; rw [h]

theorem andThen_err_none {x : Out} {f : Obj → Out} (h : (x.andThen f).err = none) :
    x.err = none ∧ x.andThen f = f x.obj := by
  cases hx : x.err with
  | none => exact ⟨rfl, andThen_none hx f⟩
  | some e => rw [andThen_some hx] at h; rw [hx] at h; cases h

/-- A property of transitions closed under composition holds of a sequence. -/
theorem andThen_rel {R : Obj → Obj → Prop} (htr : ∀ a b c, R a b → R b c → R a c) {a : Obj} {x : Out}
    {f : Obj → Out} (hx : R a x.obj) (hf : x.err = none → R x.obj (f x.obj).obj) :
    R a (x.andThen f).obj := by
  cases h : x.err with
  | none => rw [andThen_none h]; exact htr _ _ _ hx (hf h)
  | some e => rw [andThen_some h]; exact hx

/-! ## Calls -/

theorem run_append {inv : Inv} {a b : List Op} : run inv (a ++ b) = run inv a >>= fun i => run i b := by
  induction a generalizing inv with
  | nil => rfl
  | cons op a ih =>
    simp only [List.cons_append, run]
    cases h : step inv op with
    | error e => rfl
    | ok i => rw [res_bind_ok, res_bind_ok, ih]

theorem run_single {inv : Inv} (op : Op) : run inv [op] = step inv op := by
  simp only [run]
  cases step inv op <;> rfl

theorem countNew_append (a b : List Op) : countNew (a ++ b) = countNew a + countNew b := by
  unfold countNew; rw [List.filter_append, List.length_append]

theorem run_headOnly {inv inv' : Inv} {ops : List Op} (h : run inv ops = .ok inv') (hc : countNew ops = 0) :
    HeadOnly inv inv' := by
  induction ops generalizing inv with
  | nil => cases h; exact HeadOnly.refl _
  | cons op ops ih =>
    rw [countNew_cons] at hc
    simp only [run] at h
    obtain ⟨i, hi, h⟩ := res_bind_eq_ok.1 h
    refine (step_headOnly ?_ hi).trans (ih h (by omega))
    rintro m u a t rfl
    have : countNew [Op.newVersion m u a t] = 1 := rfl
    omega

theorem addName_modified {inv inv' : Inv} {mp d p : Str} (h : addName inv mp d p = .ok inv')
    (hm : inv.modified = true) : inv'.modified = true := by
  unfold addName at h
  obtain ⟨dup, _, h⟩ := res_bind_eq_ok.1 h
  obtain ⟨s, hs, h⟩ := res_bind_eq_ok.1 h
  obtain ⟨upd, _, h⟩ := res_bind_eq_ok.1 h
  obtain ⟨i3, h3, h⟩ := res_bind_eq_ok.1 h
  have hm1 : (addManifest inv mp d).modified = true := by
    unfold addManifest; split <;> exact hm
  have hset : ∀ (i : Inv) (s : DMap), (setHeadState i s).modified = i.modified := by
    intro i s; unfold setHeadState; split <;> rfl
  have hm3 : i3.modified = true := by
    unfold dropOld at h3
    split at h3
    · obtain ⟨j, _, h3⟩ := res_bind_eq_ok.1 h3; cases h3; rfl
    · cases h3; rw [hset]; exact hm1
  unfold addState at h
  split at h
  · cases h; exact hm3
  · obtain ⟨s, _, h⟩ := res_bind_eq_ok.1 h; cases h; rfl

theorem step_modified {inv inv' : Inv} {op : Op} (h : step inv op = .ok inv') (hm : inv.modified = true) :
    inv'.modified = true := by
  cases op with
  | newVersion m u a t =>
    simp only [step, newVersion] at h
    obtain ⟨nh, _, h⟩ := res_bind_eq_ok.1 h
    split at h
    · cases h; exact hm
    · split at h
      · cases h
      · cases h; exact hm
  | add ns mp cs =>
    obtain ⟨dig, _, hf⟩ := addFile_ok h
    have h0 : ∀ (cs : AMap Str Str) (i : Inv), i.modified = true →
        (cs.foldl (fun i c => addFixity i mp c) i).modified = true := by
      intro cs
      induction cs with
      | nil => intro i hi; exact hi
      | cons c cs ih => intro i hi; exact ih _ (addFixity_modified i mp c hi)
    have := foldlM_inv (P := fun i => i.modified = true) (l := ns)
      (f := fun i n => addName i mp (toLower dig) n) (fun b p b' _ hb h => addName_modified h hb) _ _
      (h0 cs inv hm) hf
    exact this
  | delete p =>
    obtain ⟨s, _, rfl⟩ := deleteFile_ok h
    simp [hm]
  | rename a b =>
    obtain ⟨s, _, rfl⟩ := renameFile_ok h
    simp [hm]
  | copy d c =>
    obtain ⟨s, _, _, hc⟩ := copyFile_ok h
    rcases hc with ⟨_, rfl⟩ | ⟨_, rfl⟩
    · exact hm
    · rfl
  | echo ex pre =>
    simp only [step] at h
    obtain ⟨s, hs, hf⟩ := echoDelete_ok h
    obtain ⟨i, s', a1, a2, a3, a4, a5, a6, a7, a8, a9, a10⟩ := foldlM_delete hs
      ((statePaths s).filter (fun f => hasPrefix f pre && !(bsearch ex f).2))
    rw [hf] at a1; cases a1
    exact a10 hm

theorem run_modified {inv inv' : Inv} {ops : List Op} (h : run inv ops = .ok inv') (hm : inv.modified = true) :
    inv'.modified = true := by
  induction ops generalizing inv with
  | nil => cases h; exact hm
  | cons op ops ih =>
    simp only [run] at h
    obtain ⟨i, hi, h⟩ := res_bind_eq_ok.1 h
    exact ih h (step_modified hi hm)

/-- What a call may do: change the inventory by operations other than opening a version, write content files
of the head version and files of extensions. -/
structure CallStep (w : World) (U : Str → Str → Prop) (o o' : Obj) : Prop where
  inv : ∃ ops, run o.inv ops = .ok o'.inv ∧ countNew ops = 0
  echo : o'.echo = o.echo
  trace : ∃ t, o'.trace = o.trace ++ t ∧ ∀ op ∈ t,
    (∃ p a i, U p a ∧ w.manifestPath p a = .ok i ∧ op.path = buildManifestName o.inv i) ∨ ∃ n, op.path = extPath n

theorem CallStep.headOnly {w : World} {U : Str → Str → Prop} {o o' : Obj} (h : CallStep w U o o') : HeadOnly o.inv o'.inv := by
  obtain ⟨ops, h1, h2⟩ := h.inv
  exact run_headOnly h1 h2

theorem buildManifestName_congr {a b : Inv} (h : HeadOnly a b) (i : Str) :
    buildManifestName b i = buildManifestName a i := by
  unfold buildManifestName buildManifestNameVersion Inv.contentDir
  rw [h.head, h.cdir]

theorem CallStep.trans {w : World} {U : Str → Str → Prop} {a b c : Obj} (h : CallStep w U a b) (h' : CallStep w U b c) : CallStep w U a c where
  inv := by
    obtain ⟨o1, h1, c1⟩ := h.inv
    obtain ⟨o2, h2, c2⟩ := h'.inv
    exact ⟨o1 ++ o2, by rw [run_append, h1, res_bind_ok, h2], by rw [countNew_append]; omega⟩
  echo := h'.echo.trans h.echo
  trace := by
    obtain ⟨t, ht, hp⟩ := h.trace
    obtain ⟨t', ht', hp'⟩ := h'.trace
    refine ⟨t ++ t', by rw [ht', ht, List.append_assoc], ?_⟩
    intro op hop
    rcases List.mem_append.1 hop with hop | hop
    · exact hp op hop
    · rcases hp' op hop with ⟨p, a, i, hu, hi, he⟩ | he
      · exact Or.inl ⟨p, a, i, hu, hi, by rw [he, buildManifestName_congr h.headOnly]⟩
      · exact Or.inr he

theorem CallStep.same {w : World} {U : Str → Str → Prop} {o o' : Obj} (hi : o'.inv = o.inv) (he : o'.echo = o.echo)
    (ht : o'.trace = o.trace) : CallStep w U o o' where
  inv := ⟨[], by rw [hi]; rfl, rfl⟩
  echo := he
  trace := ⟨[], by rw [ht]; simp, by simp⟩

theorem CallStep.refl {w : World} {U : Str → Str → Prop} (o : Obj) : CallStep w U o o := CallStep.same rfl rfl rfl

/-- a step of the inventory alone -/
theorem CallStep.ofStep {w : World} {U : Str → Str → Prop} {o : Obj} {op : Op} (hop : countNew [op] = 0) {x : Out}
    (hx : x = withInv o (step o.inv op)) : CallStep w U o x.obj := by
  subst hx
  unfold withInv
  cases h : step o.inv op with
  | error e => exact CallStep.refl o
  | ok i => exact ⟨⟨[op], by rw [run_single]; exact h, hop⟩, rfl, ⟨[], by simp, by simp⟩⟩

theorem addReader_step {w : World} {U : Str → Str → Prop} {o : Obj} {names : List Str} {mp : Str} {data : Bytes} {p a i : Str}
    (hu : U p a) (hi : w.manifestPath p a = .ok i) (hmp : mp = buildManifestName o.inv i) :
    CallStep w U o (addReader w o names mp data).obj := by
  unfold addReader
  simp only
  split
  · refine ⟨⟨[], rfl, rfl⟩, rfl, ⟨[.create mp], rfl, ?_⟩⟩
    intro op hop
    simp only [List.mem_cons, List.not_mem_nil, or_false] at hop
    subst hop
    exact Or.inl ⟨p, a, i, hu, hi, hmp⟩
  · rename_i cs hcs
    have ht : ∀ op ∈ writeFile mp data, (∃ p a i, U p a ∧ w.manifestPath p a = .ok i ∧ op.path = buildManifestName o.inv i) ∨
        ∃ n, op.path = extPath n := by
      intro op hop
      simp only [writeFile, List.mem_cons, List.not_mem_nil, or_false] at hop
      rcases hop with rfl | rfl
      · exact Or.inl ⟨p, a, i, hu, hi, hmp⟩
      · exact Or.inl ⟨p, a, i, hu, hi, hmp⟩
    unfold withInv
    cases hf : addFile o.inv names mp cs with
    | error e => exact ⟨⟨[], rfl, rfl⟩, rfl, ⟨writeFile mp data, rfl, ht⟩⟩
    | ok i' =>
      exact ⟨⟨[.add names mp cs], by rw [run_single]; exact hf, rfl⟩, rfl, ⟨writeFile mp data, rfl, ht⟩⟩

theorem buildNames_ok {w : World} {inv : Inv} {files : List Str} {area : Str} {names : List Str} {mp : Str}
    (h : buildNames w inv files area = .ok (names, mp)) :
    files.mapM (fun f => w.statePath f area) = .ok names ∧
    ∃ i, w.manifestPath (files.headD []) area = .ok i ∧ mp = buildManifestName inv i := by
  unfold buildNames at h
  obtain ⟨ns, h1, h⟩ := res_bind_eq_ok.1 h
  obtain ⟨i, h2, h⟩ := res_bind_eq_ok.1 h
  cases h
  exact ⟨h1, i, h2, rfl⟩

theorem addChecked_step {w : World} {U : Str → Str → Prop} {o : Obj} {names : List Str} {mp newPath digest : Str} {data : Bytes}
    {p a i : Str} (hu : U p a) (hi : w.manifestPath p a = .ok i) (hmp : mp = buildManifestName o.inv i) :
    CallStep w U o (addChecked w o names mp newPath digest data).obj := by
  unfold addChecked
  split
  · exact CallStep.refl o
  · exact CallStep.refl o
  · split
    · exact CallStep.ofStep (op := .copy newPath digest) rfl rfl
    · exact addReader_step hu hi hmp

theorem objAdd_step {w : World} {U : Str → Str → Prop} {o : Obj} {path area : Str} {data : Bytes} {c : Bool}
    (hu : U path area) :
    CallStep w U o (objAdd w o path area data c).obj := by
  unfold objAdd
  split
  · exact CallStep.refl o
  · split
    · exact CallStep.refl o
    · rename_i names mp hb
      obtain ⟨_, i, hi, hmp⟩ := buildNames_ok hb
      have h0 : CallStep w U o { o with updateFiles := o.updateFiles ++ [names.headD []] } := CallStep.same rfl rfl rfl
      simp only
      split
      · split
        · exact h0
        · exact h0.trans (addChecked_step hu hi hmp)
      · exact h0.trans (addReader_step hu hi hmp)

theorem objAddReader_step {w : World} {U : Str → Str → Prop} {o : Obj} {files : List Str} {area : Str} {data : Bytes}
    (hu : U (files.headD []) area) :
    CallStep w U o (objAddReader w o files area data).obj := by
  unfold objAddReader
  split
  · exact CallStep.refl o
  · split
    · exact CallStep.refl o
    · split
      · exact CallStep.refl o
      · rename_i names mp hb
        obtain ⟨_, i, hi, hmp⟩ := buildNames_ok hb
        exact addReader_step hu hi hmp

theorem objIfExists_step {w : World} {U : Str → Str → Prop} {o : Obj} {p d : Str} {op : Op} (hop : countNew [op] = 0) :
    CallStep w U o (objIfExists o p d (fun i => step i op)).obj := by
  unfold objIfExists
  split
  · exact CallStep.refl o
  · split
    · exact CallStep.refl o
    · exact CallStep.refl o
    · exact CallStep.ofStep hop rfl

theorem objEcho_step {w : World} {U : Str → Str → Prop} {o : Obj} : CallStep w U o (objEcho w o).obj := by
  unfold objEcho
  split
  · exact CallStep.refl o
  · rename_i base hb
    have h0 : CallStep w U o { o with updateFiles := slicesCompact (sortStr o.updateFiles) } :=
      CallStep.same rfl rfl rfl
    exact h0.trans (CallStep.ofStep (op := .echo (slicesCompact (sortStr o.updateFiles))
      (if base = ".".toList then [] else base)) rfl rfl)

theorem echoIf_step {w : World} {U : Str → Str → Prop} {o : Obj} : CallStep w U o (if o.echo then objEcho w o else ok o).obj := by
  split
  · exact objEcho_step
  · exact CallStep.refl o

/-- the name and area of a content path a call may build -/
def Call.uses : Call → List (Str × Str)
  | .add p a _ _ => [(p, a)]
  | .reader fs a _ => [(fs.headD [], a)]
  | _ => []

theorem runCall_step {w : World} {U : Str → Str → Prop} {o : Obj} (c : Call) (hu : ∀ x ∈ c.uses, U x.1 x.2) :
    CallStep w U o (runCall w o c).obj := by
  cases c with
  | add p a d c => exact objAdd_step (hu (p, a) (by simp [Call.uses]))
  | reader fs a d => exact objAddReader_step (hu (fs.headD [], a) (by simp [Call.uses]))
  | delete p d => exact objIfExists_step (op := .delete p) rfl
  | rename a b d => exact objIfExists_step (op := .rename a b) rfl
  | beginArea => exact CallStep.same rfl rfl rfl
  | endArea =>
    unfold runCall
    exact andThen_rel (R := CallStep w U) (fun a b c => CallStep.trans) echoIf_step
      (fun _ => CallStep.same rfl rfl rfl)
  | ext n d =>
    refine ⟨⟨[], rfl, rfl⟩, rfl, ⟨writeFile (extPath n) d, rfl, ?_⟩⟩
    intro op hop
    simp only [writeFile, List.mem_cons, List.not_mem_nil, or_false] at hop
    rcases hop with rfl | rfl
    · exact Or.inr ⟨n, rfl⟩
    · exact Or.inr ⟨n, rfl⟩

theorem runCalls_step {w : World} {U : Str → Str → Prop} {o : Obj} (cs : List Call)
    (hu : ∀ c ∈ cs, ∀ x ∈ c.uses, U x.1 x.2) : CallStep w U o (runCalls w o cs).obj := by
  induction cs generalizing o with
  | nil => exact CallStep.refl o
  | cons c cs ih =>
    unfold runCalls
    exact andThen_rel (R := CallStep w U) (fun a b c => CallStep.trans) (runCall_step c (hu c (by simp)))
      (fun _ => ih (fun c hc => hu c (by simp [hc])))

/-! ## Sessions -/

/-- A path a session on an object with `lo - 1` versions may write to before `Close`: content, inventory or
sidecar of a version from number `lo` on, or a file of an extension. -/
def NewPath (w : World) (U : Str → Str → Prop) (inv0 : Inv) (lo : Nat) (p : Str) : Prop :=
  (∃ k : Nat, lo ≤ k ∧
    ((∃ q a i, U q a ∧ w.manifestPath q a = .ok i ∧
        p = buildManifestName { inv0 with head := verName inv0.paddingLength k } i) ∨
      p = verInvPath (verName inv0.paddingLength k) ∨
      p = verSidecarPath (verName inv0.paddingLength k) inv0.digestAlg)) ∨
  ∃ n, p = extPath n

/-- The state of an object during a session that began with the inventory `inv0`. -/
structure Good (w : World) (U : Str → Str → Prop) (inv0 : Inv) (lo : Nat) (o : Obj) : Prop where
  wf : ∃ n, WF o.inv n ∧ lo ≤ n
  run : ∃ ops, run inv0 ops = .ok o.inv
  cdir : o.inv.contentDirectory = inv0.contentDirectory
  pad : o.inv.paddingLength = inv0.paddingLength
  alg : o.inv.digestAlg = inv0.digestAlg
  wr : o.inv.writeable = true
  trace : ∀ op ∈ o.trace, NewPath w U inv0 lo op.path

theorem Good.call {w : World} {U : Str → Str → Prop} {inv0 : Inv} {lo : Nat} (hlo : 0 < lo) {o o' : Obj}
    (h : Good w U inv0 lo o) (hc : CallStep w U o o') : Good w U inv0 lo o' := by
  obtain ⟨n, hn, hle⟩ := h.wf
  obtain ⟨ops, hops, hcn⟩ := hc.inv
  have hh := hc.headOnly
  refine ⟨⟨n, ?_, hle⟩, ?_, hh.cdir.trans h.cdir, hh.pad.trans h.pad, hh.alg.trans h.alg, hh.wr.trans h.wr, ?_⟩
  · have := run_wf hn hops; rw [hcn] at this; exact this
  · obtain ⟨ops0, h0⟩ := h.run
    exact ⟨ops0 ++ ops, by rw [run_append, h0, res_bind_ok, hops]⟩
  · obtain ⟨t, ht, hp⟩ := hc.trace
    rw [ht]
    intro op hop
    rcases List.mem_append.1 hop with hop | hop
    · exact h.trace op hop
    · rcases hp op hop with ⟨p, a, i, hu, hi, he⟩ | he
      · refine Or.inl ⟨n, hle, Or.inl ⟨p, a, i, hu, hi, ?_⟩⟩
        have h1 := hn.1.head_eq (by omega)
        rw [he]
        unfold buildManifestName buildManifestNameVersion Inv.contentDir
        rw [h.cdir, h1, h.pad]
      · exact Or.inr he

theorem Good.withInv {w : World} {U : Str → Str → Prop} {inv0 : Inv} {lo : Nat} {o : Obj}
    (h : Good w U inv0 lo o) {i : Inv} (hi : i = o.inv) : Good w U inv0 lo { o with inv := i } := by
  subst hi; exact h

theorem clean_modified {inv : Inv} (h : inv.modified = true) : clean inv = .ok inv := by
  unfold clean; rw [if_pos h]

theorem storeInventory_trace {w : World} {o : Obj} {v r : Bool} :
    (storeInventory w o v r).obj.inv = o.inv ∧ (storeInventory w o v r).obj.echo = o.echo ∧
    ∃ t, (storeInventory w o v r).obj.trace = o.trace ++ t ∧ ∀ op ∈ t,
      (r = true ∧ (op.path = rootInvPath ∨ op.path = rootSidecarPath o.inv.digestAlg)) ∨
      (v = true ∧ (op.path = verInvPath o.inv.head ∨ op.path = verSidecarPath o.inv.head o.inv.digestAlg)) := by
  unfold storeInventory
  split
  · exact ⟨rfl, rfl, [], by simp [fail], by simp⟩
  · split
    · exact ⟨rfl, rfl, [], by simp [fail], by simp⟩
    · refine ⟨rfl, rfl, _, rfl, ?_⟩
      intro op hop
      rcases List.mem_append.1 hop with hop | hop
      · cases r with
        | false => simp at hop
        | true =>
          simp only [if_true, writeFile, List.cons_append, List.nil_append, List.mem_cons, List.not_mem_nil,
            or_false] at hop
          left
          refine ⟨rfl, ?_⟩
          rcases hop with rfl | rfl | rfl | rfl <;> simp [FsOp.path]
      · cases v with
        | false => simp at hop
        | true =>
          simp only [if_true, writeFile, List.cons_append, List.nil_append, List.mem_cons, List.not_mem_nil,
            or_false] at hop
          right
          refine ⟨rfl, ?_⟩
          rcases hop with rfl | rfl | rfl | rfl <;> simp [FsOp.path]

theorem Good.store {w : World} {U : Str → Str → Prop} {inv0 : Inv} {lo : Nat} (hlo : 0 < lo) {o : Obj}
    (h : Good w U inv0 lo o) : Good w U inv0 lo (storeInventory w o true false).obj := by
  obtain ⟨hi, he, t, ht, hp⟩ := storeInventory_trace (w := w) (o := o) (v := true) (r := false)
  refine ⟨by rw [hi]; exact h.wf, by rw [hi]; exact h.run, by rw [hi]; exact h.cdir, by rw [hi]; exact h.pad,
    by rw [hi]; exact h.alg, by rw [hi]; exact h.wr, ?_⟩
  rw [ht]
  intro op hop
  rcases List.mem_append.1 hop with hop | hop
  · exact h.trace op hop
  · obtain ⟨n, hn, hle⟩ := h.wf
    have h1 := hn.1.head_eq (by omega)
    rcases hp op hop with ⟨hc, _⟩ | ⟨_, hc⟩
    · cases hc
    · refine Or.inl ⟨n, hle, Or.inr ?_⟩
      rw [h1, h.pad, h.alg] at hc
      exact hc

theorem newVersion_frame {inv inv' : Inv} {m u a t : Str} (h : newVersion inv m u a t = .ok inv') :
    inv'.contentDirectory = inv.contentDirectory ∧ inv'.paddingLength = inv.paddingLength ∧
    inv'.digestAlg = inv.digestAlg ∧ inv'.writeable = true ∧ inv'.fixityAlgs = inv.fixityAlgs ∧
    inv'.manifest = inv.manifest ∧ inv'.fixity = inv.fixity ∧ inv'.modified = inv.modified ∧
    inv'.id = inv.id ∧ inv'.spec = inv.spec := by
  simp only [newVersion] at h
  obtain ⟨nh, _, h⟩ := res_bind_eq_ok.1 h
  split at h
  · cases h; simp
  · split at h
    · cases h
    · cases h; simp

theorem Good.newVersion {w : World} {U : Str → Str → Prop} {inv0 : Inv} {lo : Nat} {o : Obj} {i : Inv} {n : Nat}
    (hwf : WF o.inv n) (hle : lo ≤ n + 1) (hrun : ∃ ops, Gocfl.run inv0 ops = .ok o.inv)
    (hcd : o.inv.contentDirectory = inv0.contentDirectory) (hpad : o.inv.paddingLength = inv0.paddingLength)
    (halg : o.inv.digestAlg = inv0.digestAlg) (htr : ∀ op ∈ o.trace, NewPath w U inv0 lo op.path)
    {m u a t : Str} (h : Gocfl.newVersion o.inv m u a t = .ok i) (e : Bool) :
    Good w U inv0 lo { o with echo := e, inv := i } := by
  obtain ⟨f1, f2, f3, f4, _⟩ := newVersion_frame h
  refine ⟨⟨n + 1, ?_, hle⟩, ?_, f1.trans hcd, f2.trans hpad, f3.trans halg, f4, htr⟩
  · exact step_wf (op := .newVersion m u a t) hwf h
  · obtain ⟨ops, h0⟩ := hrun
    exact ⟨ops ++ [.newVersion m u a t], by rw [run_append, h0, res_bind_ok, run_single]; exact h⟩

/-- every call of a list uses names in `U` only -/
def UsesIn (U : Str → Str → Prop) (cs : List Call) : Prop := ∀ c ∈ cs, ∀ x ∈ c.uses, U x.1 x.2

def Round.UsesIn (U : Str → Str → Prop) (r : Round) : Prop :=
  Gocfl.UsesIn U r.before ∧ Gocfl.UsesIn U r.body ∧ Gocfl.UsesIn U r.after

theorem andThen_good {P : Obj → Prop} {x : Out} {f : Obj → Out} (hx : P x.obj) (hf : P x.obj → P (f x.obj).obj) :
    P (x.andThen f).obj := by
  cases h : x.err with
  | none => rw [andThen_none h]; exact hf hx
  | some e => rw [andThen_some h]; exact hx

theorem Good.start {w : World} {U : Str → Str → Prop} {inv0 : Inv} {lo : Nat} (hlo : 0 < lo) {o : Obj}
    (h : Good w U inv0 lo o) (v : VInfo) (e : Bool) {before : List Call} (hb : UsesIn U before) :
    Good w U inv0 lo (startUpdate w o v e before).obj := by
  unfold startUpdate
  refine andThen_good ?_ (fun hx => hx.call hlo (runCalls_step before hb))
  unfold Gocfl.withInv
  obtain ⟨n, hn, hle⟩ := h.wf
  cases hv : Gocfl.newVersion o.inv v.msg v.userName v.userAddress v.now with
  | error err => exact ⟨h.wf, h.run, h.cdir, h.pad, h.alg, h.wr, h.trace⟩
  | ok i => exact Good.newVersion hn (by omega) h.run h.cdir h.pad h.alg h.trace hv e

theorem Good.clean {w : World} {U : Str → Str → Prop} {inv0 : Inv} {lo : Nat} {o : Obj}
    (h : Good w U inv0 lo o) (hm : o.inv.modified = true) :
    Gocfl.withInv o (Gocfl.clean o.inv) = ok o := by
  rw [clean_modified hm]; rfl

theorem CallStep.modified {w : World} {U : Str → Str → Prop} {o o' : Obj} (h : CallStep w U o o')
    (hm : o.inv.modified = true) : o'.inv.modified = true := by
  obtain ⟨ops, hr, _⟩ := h.inv
  exact run_modified hr hm

/-- during a session that has changed something -/
def GoodM (w : World) (U : Str → Str → Prop) (inv0 : Inv) (lo : Nat) (o : Obj) : Prop :=
  Good w U inv0 lo o ∧ o.inv.modified = true

theorem GoodM.call {w : World} {U : Str → Str → Prop} {inv0 : Inv} {lo : Nat} (hlo : 0 < lo) {o o' : Obj}
    (h : GoodM w U inv0 lo o) (hc : CallStep w U o o') : GoodM w U inv0 lo o' :=
  ⟨h.1.call hlo hc, hc.modified h.2⟩

theorem GoodM.start {w : World} {U : Str → Str → Prop} {inv0 : Inv} {lo : Nat} (hlo : 0 < lo) {o : Obj}
    (h : GoodM w U inv0 lo o) (v : VInfo) (e : Bool) {before : List Call} (hb : UsesIn U before) :
    GoodM w U inv0 lo (startUpdate w o v e before).obj := by
  refine ⟨h.1.start hlo v e hb, ?_⟩
  unfold startUpdate
  refine andThen_good (P := fun o => o.inv.modified = true) ?_
    (fun hx => (runCalls_step (U := U) before hb).modified hx)
  unfold Gocfl.withInv
  cases hv : Gocfl.newVersion o.inv v.msg v.userName v.userAddress v.now with
  | error err => exact h.2
  | ok i => exact (newVersion_frame hv).2.2.2.2.2.2.2.1.trans h.2

theorem GoodM.store {w : World} {U : Str → Str → Prop} {inv0 : Inv} {lo : Nat} (hlo : 0 < lo) {o : Obj}
    (h : GoodM w U inv0 lo o) : GoodM w U inv0 lo (storeInventory w o true false).obj :=
  ⟨h.1.store hlo, by rw [storeInventory_trace.1]; exact h.2⟩

/-- the common part of `EndUpdate`: mirror deletion, hook, storing the inventory of the version -/
theorem GoodM.endPart {w : World} {U : Str → Str → Prop} {inv0 : Inv} {lo : Nat} (hlo : 0 < lo) {o : Obj}
    (h : GoodM w U inv0 lo o) {after : List Call} (ha : UsesIn U after)
    {f : Obj → Out} (hf : ∀ o, GoodM w U inv0 lo o → GoodM w U inv0 lo (f o).obj) :
    GoodM w U inv0 lo
      ((if o.echo then objEcho w o else ok o).andThen fun o =>
       (runCalls w o after).andThen fun o =>
       (Gocfl.withInv o (Gocfl.clean o.inv)).andThen fun o => (storeInventory w o true false).andThen f).obj := by
  refine andThen_good (h.call hlo echoIf_step) (fun h1 => ?_)
  refine andThen_good (h1.call hlo (runCalls_step after ha)) (fun h2 => ?_)
  rw [h2.1.clean h2.2, andThen_ok]
  exact andThen_good (h2.store hlo) (fun h3 => hf _ h3)

theorem andThen_ok_right (x : Out) : x.andThen ok = x := by
  unfold Out.andThen
  cases h : x.err with
  | none => cases x; simp only at h; subst h; rfl
  | some e => rfl

theorem GoodM.endUpdate {w : World} {U : Str → Str → Prop} {inv0 : Inv} {lo : Nat} (hlo : 0 < lo) {o : Obj}
    (h : GoodM w U inv0 lo o) {after : List Call} (ha : UsesIn U after) {rounds : List Round}
    (hr : ∀ r ∈ rounds, r.UsesIn U) : GoodM w U inv0 lo (endUpdate w o after rounds).obj := by
  induction rounds generalizing o after with
  | nil =>
    unfold Gocfl.endUpdate
    rw [if_neg (by rw [h.1.wr]; simp), if_neg (by rw [h.2]; simp)]
    have := h.endPart hlo ha (f := ok) (fun o h => h)
    simpa only [andThen_ok_right] using this
  | cons r rs ih =>
    unfold Gocfl.endUpdate
    rw [if_neg (by rw [h.1.wr]; simp), if_neg (by rw [h.2]; simp)]
    have hru := hr r (by simp)
    refine h.endPart hlo ha (fun o h => ?_)
    refine andThen_good (h.start hlo _ _ hru.1) (fun h1 => ?_)
    refine andThen_good (h1.call hlo (runCalls_step _ hru.2.1)) (fun h2 => ?_)
    exact ih h2 hru.2.2 (fun r hr' => hr r (by simp [hr']))

theorem Good.endUpdate {w : World} {U : Str → Str → Prop} {inv0 : Inv} {lo : Nat} (hlo : 0 < lo) {o : Obj}
    (h : Good w U inv0 lo o) {after : List Call} (ha : UsesIn U after) {rounds : List Round}
    (hr : ∀ r ∈ rounds, r.UsesIn U) : Good w U inv0 lo (endUpdate w o after rounds).obj := by
  cases hm : o.inv.modified with
  | true => exact (GoodM.endUpdate hlo ⟨h, hm⟩ ha hr).1
  | false =>
    have : Gocfl.endUpdate w o after rounds = ok o := by
      cases rounds <;> · unfold Gocfl.endUpdate; rw [if_neg (by rw [h.wr]; simp), if_pos hm]
    rw [this]; exact h

/-- all names used in a session are in `U` -/
structure Session.UsesIn (U : Str → Str → Prop) (s : Session) : Prop where
  before : Gocfl.UsesIn U s.before
  body : Gocfl.UsesIn U s.body
  after : Gocfl.UsesIn U s.after
  rounds : ∀ r ∈ s.rounds, r.UsesIn U

/-- Up to `Close` a session only writes to new versions and extensions. -/
theorem sessionOpen_good {w : World} {U : Str → Str → Prop} {inv : Inv} {n : Nat} (h : WF inv n) {s : Session}
    (hu : s.UsesIn U) :
    Good w U inv (n + 1) (sessionOpen w inv s).obj ∨
      ((sessionOpen w inv s).obj.trace = [] ∧ (sessionOpen w inv s).obj.inv = inv ∧
        (sessionOpen w inv s).err ≠ none) := by
  unfold sessionOpen startUpdate withInv
  cases hv : newVersion inv s.info.msg s.info.userName s.info.userAddress s.info.now with
  | error e => right; exact ⟨rfl, rfl, by simp [Out.andThen]⟩
  | ok i =>
    left
    have h0 : Good w U inv (n + 1) ⟨i, [], s.echo, []⟩ :=
      Good.newVersion (o := ⟨inv, [], false, []⟩) h (Nat.le_refl _) ⟨[], rfl⟩ rfl rfl rfl (by simp) hv s.echo
    refine andThen_good ?_ (fun h1 => ?_)
    · exact h0.call (by omega) (runCalls_step _ hu.before)
    · refine andThen_good (h1.call (by omega) (runCalls_step _ hu.body)) (fun h2 => ?_)
      exact h2.endUpdate (by omega) hu.after hu.rounds

end Gocfl
