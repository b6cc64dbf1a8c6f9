import Verif.Props.Archive
import Verif.Props.Retry

/-! # Updates that failed or were interrupted take nothing away (C164) -/

namespace Gocfl

/-- `fs` has what `fs0` has (the sidecar and the files of extensions apart) and nothing more beside the sub folders -/
structure Carries (alg : Str) (fs0 fs : FS) : Prop where
  nodup : (mkeys fs).Nodup
  top : ∀ q, '/' ∉ q → q ≠ rootSidecarPath alg → mget fs q = mget fs0 q
  kept : ∀ q b, '/' ∈ q → topOf q ≠ "extensions".toList → mget fs0 q = some b → mget fs q = some b

theorem Carries.refl {alg : Str} {fs : FS} (h : (mkeys fs).Nodup) : Carries alg fs fs := ⟨h, fun _ _ _ => rfl, fun _ _ _ _ h => h⟩

theorem mget_op_congr {fs fs' : FS} {p : Str} (op : FsOp) (h : mget fs p = mget fs' p) : mget (op.apply fs) p = mget (op.apply fs') p := by
  cases op with
  | create x =>
    by_cases hx : x = p
    · subst hx; simp [FsOp.apply]
    · simp only [FsOp.apply]
      rw [mget_mset_ne _ hx, mget_mset_ne _ hx]; exact h
  | append x b =>
    by_cases hx : x = p
    · subst hx; simp [FsOp.apply, h]
    · simp only [FsOp.apply]
      rw [mget_mset_ne _ hx, mget_mset_ne _ hx]; exact h

/-- the content of a file after some changes depends on what it was before only -/
theorem mget_applyOps_congr {fs fs' : FS} {p : Str} (t : List FsOp) (h : mget fs p = mget fs' p) :
    mget (applyOps fs t) p = mget (applyOps fs' t) p := by
  induction t generalizing fs fs' with
  | nil => exact h
  | cons op t ih => exact ih (mget_op_congr op h)

/-- ... and not on that if the file is created -/
theorem mget_created {bl : List Block} {p : Str} (h : p ∈ bl.map Prod.fst) (fs fs' : FS) :
    mget (applyOps fs (render bl)) p = mget (applyOps fs' (render bl)) p := by
  induction bl generalizing fs fs' with
  | nil => cases h
  | cons b bl ih =>
    rw [show b :: bl = [b] ++ bl from rfl, render_append, applyOps_append, applyOps_append]
    by_cases hp : p ∈ bl.map Prod.fst
    · exact ih hp _ _
    · have hb : b.1 = p := by
        rcases List.mem_cons.1 h with h | h
        · exact h.symm
        · exact absurd h hp
      refine mget_applyOps_congr _ ?_
      obtain ⟨x, d⟩ := b
      subst hb
      cases d with
      | none => simp [render, Block.ops, applyOps, FsOp.apply]
      | some d => rw [render_single, mget_writeFile, mget_writeFile]

/-- writing the same files to both -/
theorem Carries.render {alg : Str} {fs0 fs : FS} (h : Carries alg fs0 fs) (bl : List Block) :
    Carries alg (applyOps fs0 (render bl)) (applyOps fs (render bl)) := by
  refine ⟨applyOps_nodup h.nodup _, fun q hq hn => mget_applyOps_congr _ (h.top q hq hn), fun q b hsl hq hb => ?_⟩
  by_cases hp : q ∈ bl.map Prod.fst
  · rw [mget_created hp fs fs0]; exact hb
  · have hne : ∀ op ∈ Gocfl.render bl, op.path ≠ q := fun op ho he => hp (he ▸ mem_render_path ho)
    rw [mget_applyOps_ne hne] at hb ⊢
    exact h.kept q b hsl hq hb

/-- what a session writes is files -/
theorem session_render {w : World} {inv : Inv} {s : Session} {h : Bytes → Str} (hh : w.hash inv.digestAlg = some h) :
    ∃ bl, (session w inv s).obj.trace = render bl := by
  have hrec : RecAlg (fun _ => True) h inv (session w inv s).obj := (recAlg_inv hh).session
    ⟨⟨[], rfl, fun d m p hd hp => Or.inl ⟨m, hd, hp⟩⟩, rfl⟩ (fun _ _ _ _ => trivial)
  obtain ⟨⟨bl, h1, _⟩, _⟩ := hrec
  exact ⟨bl, h1⟩

theorem joinWith_slash {a b : Str} (cs : List Str) : '/' ∈ joinWith '/' (a :: b :: cs) := by
  rw [joinWith_cons (by simp)]; simp

/-- before `Close` nothing is written beside the sub folders -/
theorem newPath_slash {w : World} {U : Str → Str → Prop} {inv : Inv} {lo : Nat} (hc : ValidComp inv.contentDir)
    (hs : ∀ p a i, U p a → w.manifestPath p a = .ok i → InsideName i) {p : Str} (h : NewPath w U inv lo p) : '/' ∈ p := by
  rcases h with ⟨k, hk, h⟩ | ⟨n, rfl⟩
  · rcases h with ⟨q, a, i, hu, hi, rfl⟩ | rfl | rfl
    · obtain ⟨j, hj⟩ := hs q a i hu hi
      obtain ⟨cs, h1, h2, h3⟩ := C13_content_path_inside_partial
        (inv := { inv with head := verName inv.paddingLength k }) (verName_valid _ _) hc hj
      rw [h3]
      exact joinWith_slash _
    · unfold verInvPath; simp
    · unfold verSidecarPath; simp
  · unfold extPath; simp

/-- what is left of a session that did not get to the root inventory -/
theorem crash_newPaths {w : World} {inv : Inv} {n : Nat} {s : Session} {t' : List FsOp} (h : WF inv n)
    (ht : CrashPrefix t' (session w inv s).obj.trace) (hroot : ∀ op ∈ t', op.path ≠ rootInvPath) :
    ∀ op ∈ t', NewPath w (fun p a => (p, a) ∈ s.uses) inv (n + 1) op.path := by
  have key : CrashPrefix t' (sessionOpen w inv s).obj.trace → ∀ op ∈ t', NewPath w (fun p a => (p, a) ∈ s.uses) inv (n + 1) op.path := by
    intro ht op hop
    obtain ⟨op', h1, h2⟩ := ht.path hop
    rw [← h2]
    exact sessionOpen_trace h s op' h1
  unfold session at ht
  cases he : (sessionOpen w inv s).err with
  | some e => rw [andThen_some he] at ht; exact key ht
  | none =>
    rw [andThen_none he] at ht
    rcases closeObj_cases w (sessionOpen w inv s).obj s.exts with ⟨h1, _⟩ | ⟨_, _, _, h1, _⟩ | ⟨_, _, h, _, h1⟩
    · rw [h1] at ht; exact key ht
    · rw [h1] at ht; exact key ht
    · rw [h1] at ht
      rcases CrashPrefix.append ht with ht | ⟨u, hu, rfl⟩
      · exact key ht
      · unfold rootWrites writeFile at hu
        cases hu with
        | stop => exact key (by rw [List.append_nil]; exact CrashPrefix.refl _)
        | next _ hu => exact absurd rfl (hroot (.create rootInvPath) (by simp))

theorem path_top {q : Str} (h : '/' ∈ q) : ∃ r, q = topOf q ++ '/' :: r ∧ '/' ∉ topOf q := by
  obtain ⟨a, b, rfl, ha⟩ : ∃ a b, q = a ++ '/' :: b ∧ '/' ∉ a := by
    induction q with
    | nil => cases h
    | cons c q ih =>
      by_cases hc : c = '/'
      · subst hc; exact ⟨[], q, rfl, by simp⟩
      · rcases List.mem_cons.1 h with h | h
        · exact absurd h.symm hc
        · obtain ⟨a, b, rfl, ha⟩ := ih h
          exact ⟨c :: a, b, rfl, by simp [Ne.symm hc, ha]⟩
  rw [topOf_append ha]
  exact ⟨b, rfl, ha⟩

/-- the left-overs of a session take nothing away -/
theorem Carries.crash {w : World} {alg : Str} {fs0 fs : FS} {p N : Nat} {inv : Inv} (h : Carries alg fs0 fs) (I : Intact w fs0 p N inv)
    {s : Session} (hs : SafeNames w s) {t' : List FsOp} (ht : CrashPrefix t' (session w inv s).obj.trace)
    (hroot : ∀ op ∈ t', op.path ≠ rootInvPath) : Carries alg fs0 (applyOps fs t') := by
  have hcd : ValidComp inv.contentDir := I.ok.cdir
  have hp := crash_newPaths I.ok.wf ht hroot
  have hs' : ∀ p a i, (p, a) ∈ s.uses → w.manifestPath p a = .ok i → InsideName i := fun p a i hu hi => hs (p, a) hu i hi
  refine ⟨applyOps_nodup h.nodup _, fun q hq hn => ?_, fun q b hsl hq hb => ?_⟩
  · rw [← h.top q hq hn]
    refine mget_applyOps_ne (fun op ho he => hq ?_)
    rw [← he]
    exact newPath_slash hcd hs' (hp op ho)
  · rw [← h.kept q b hsl hq hb]
    refine mget_applyOps_ne (fun op ho he => ?_)
    have htop := newPath_top hcd hs' (hp op ho)
    rw [he] at htop
    rcases htop with ⟨k, hk, htop⟩ | htop
    · obtain ⟨r, hr, hn⟩ := path_top hsl
      rw [hr] at hb
      rcases I.dirs _ r b hb hn with h1 | h1 | h1
      · obtain ⟨j, _, hj, he⟩ := I.ok.wf.1.mem_keys.1 h1
        rw [htop] at he
        have := verName_inj he
        omega
      · rw [htop] at h1
        have := congrArg List.head? h1
        rw [verName_head] at this
        exact absurd this (by decide)
      · exact hq h1
    · exact hq htop

/-! ## Reading -/

theorem copyOut_congr {hash : Option (Bytes → Str)} {fs fs' : FS} {i x d : Str} (h : mget fs i = mget fs' i) :
    copyOut hash fs i x d = copyOut hash fs' i x d := by
  unfold copyOut; rw [h]

theorem extractNames_congr {hash : Option (Bytes → Str)} {fs fs' : FS} {xp : ExtractPath} {is : List Str} {d : Str}
    (h : ∀ i ∈ is, mget fs i = mget fs' i) (names : List Str) :
    extractNames hash fs xp is d names = extractNames hash fs' xp is d names := by
  induction names with
  | nil => rfl
  | cons e es ih =>
    unfold extractNames
    rw [ih]
    cases is with
    | nil => rfl
    | cons i is =>
      simp only [copyOut_congr (h i (List.mem_cons_self ..))]

theorem extractState_congr {hash : Option (Bytes → Str)} {fs fs' : FS} {xp : ExtractPath} {man : DMap}
    (h : ∀ d m i, (d, m) ∈ man → i ∈ m → mget fs i = mget fs' i) (st : DMap) :
    extractState hash fs xp man st = extractState hash fs' xp man st := by
  induction st with
  | nil => rfl
  | cons e st ih =>
    obtain ⟨d, names⟩ := e
    unfold extractState
    rw [ih]
    cases hm : mget man d with
    | none => rfl
    | some m =>
      cases m with
      | nil => rfl
      | cons i is =>
        simp only [extractNames_congr (h d (i :: is) · (mem_of_mget hm)) names]

/-- extraction reads the content files of the manifest -/
theorem extract_congr {w : World} {inv : Inv} {fs fs' : FS} (h : ∀ d m i, (d, m) ∈ inv.manifest → i ∈ m → mget fs i = mget fs' i)
    (xp : ExtractPath) (v : Str) (wm : Bool) : extract w inv fs xp v wm = extract w inv fs' xp v wm := by
  unfold extract
  cases mget inv.versions (selectVersion inv v) with
  | none => rfl
  | some ver => simp only [extractState_congr h ver.state]

theorem rootSidecar_slash {alg : Str} (h : alg = "sha512".toList ∨ alg = "sha256".toList) : '/' ∉ rootSidecarPath alg := by
  rcases h with h | h <;> (rw [h]; decide)

/-- loading does not depend on the sidecar, but for what is found to say about it -/
theorem loadRoot_sidecar {w : World} {env : Env} {fs0 F : FS} {r : RawInv} (S : StoredInv w fs0 r) {i : Inv} {f : List Fnd}
    (hl : loadRoot w env fs0 = .ok (i, f)) (hr : mget F rootInvPath = mget fs0 rootInvPath) : ∃ g, loadRoot w env F = .ok (i, g) := by
  obtain ⟨b, sb, hash, h1, h2, h3, _⟩ := S
  unfold loadRoot at hl ⊢
  rw [hr]
  simp only [h1, h2] at hl ⊢
  obtain ⟨x, hx, hl⟩ := res_bind_eq_ok.1 hl
  obtain ⟨y, hy, hl⟩ := res_bind_eq_ok.1 hl
  cases hl
  rw [hx]
  obtain ⟨g, hg⟩ : ∃ g, sidecarFnd w F (rootSidecarPath r.inv.digestAlg) r.inv.digestAlg b = .ok g := by
    unfold sidecarFnd
    rw [h3]
    split
    · exact ⟨_, rfl⟩
    · split
      · exact ⟨_, rfl⟩
      · exact ⟨_, rfl⟩
  exact ⟨x.2 ++ g, by simp only [res_bind_ok, hg]⟩

theorem declName_ne {num alg : Str} : declName num ≠ rootSidecarPath alg := by
  intro h
  have := congrArg List.head? h
  revert this
  show some '0' = some 'i' → False
  decide

/-- what holds a valid object, and more in its sub folders, is opened as that -/
theorem Carries.load {w : World} {fs0 F : FS} {p N : Nat} {r : RawInv} (h : Carries r.inv.digestAlg fs0 F) (O : ValidObject w fs0 p N r)
    (env : Env) (plain : Bool) (blank : Inv) {ls : List (Str → Res Str)} {fs : FS} {id : Str} (hl : (rootPath ls id).2 = false)
    (hF : subFS fs (rootPath ls id).1 = F) : ∃ f, loadByID w env plain blank ls fs id = .ok (loadedInv p r, f) := by
  have hroot : mget F rootInvPath = mget fs0 rootInvPath := h.top _ (by decide) (root_ne_sidecar _)
  obtain ⟨f0, hf0⟩ := load_valid_any env O.stored O.decoded O.inv
  obtain ⟨f, hf⟩ := loadRoot_sidecar O.stored hf0 hroot
  obtain ⟨num, hv, hd, ho⟩ := O.decl
  have hside : '=' ∉ rootSidecarPath r.inv.digestAlg := by
    rcases O.alg with h | h <;> (rw [h]; decide)
  have hver : getVersion objDecl (topFiles F) = .version num := by
    refine getVersion_topFiles hv h.nodup (by rw [h.top _ (declName_slash hv) declName_ne]; exact hd) (fun k hk hs => ?_)
    by_cases hks : k = rootSidecarPath r.inv.digestAlg
    · right; rw [hks]; exact hside
    rw [h.top k hs hks] at hk
    obtain ⟨b, hb⟩ := Option.ne_none_iff_exists'.1 hk
    rcases ho k b hb hs with h | h | h
    · exact Or.inl h
    · right; rw [h]; decide
    · exact absurd h hks
  obtain ⟨b, _, _, hb, _⟩ := O.stored
  refine ⟨f, ?_⟩
  unfold loadByID loadByFolder loadInventory
  rw [hl, hF, hver]
  simp only [Bool.false_eq_true, if_false, hroot, hb]
  exact hf

theorem Carries.exists {w : World} {fs0 F : FS} {p N : Nat} {r : RawInv} (h : Carries r.inv.digestAlg fs0 F) (O : ValidObject w fs0 p N r)
    {ls : List (Str → Res Str)} {fs : FS} {id : Str} (hl : (rootPath ls id).2 = false)
    (hF : subFS fs (rootPath ls id).1 = F) : objectExists ls fs id = .ok true := by
  obtain ⟨b, _, _, hb, _⟩ := O.stored
  refine objectExists_of_file hl (p := rootInvPath) ?_
  rw [← mget_subFS, hF, h.top _ (by decide) (root_ne_sidecar _), hb]
  simp

/-! ## Runs -/

/-- The object with this id opens and each version comes out as the history says (`Retrieved` without validity: the
left-overs of a failed update lie in the folder). -/
def Readable (w : World) (env : Env) (plain : Bool) (blank : Inv) (ls : List (Str → Res Str)) (fs : FS) (id : Str) (H : History) : Prop :=
  ∃ i f, loadByID w env plain blank ls fs id = .ok (i, f) ∧ i.id = id ∧
    (∀ k E, H[k]? = some E → Yields w i (subFS fs (rootPath ls id).1) (verName 0 ((k + 1 : Nat) : Int)) E) ∧
    Yields w i (subFS fs (rootPath ls id).1) "latest".toList H.last

/-- the root inventory of the object in the folder is not among the files written -/
def RootUntouched (folder : Str) (t : List FsOp) : Prop := ∀ op ∈ t, op.path ≠ under folder rootInvPath

/-- of the files that were to be written, `t` has been, and what is missing is not the root inventory -/
def RootDone (folder : Str) (t whole : List FsOp) : Prop :=
  ∃ t1 t2 t3, whole = t1 ++ t2 ∧ t = t1 ++ t3 ∧ CrashPrefix t3 t2 ∧ RootUntouched folder t2

/-- A run of commands as `ArchiveRun`, in which updates may also break off.  `broken`: `t` is what an update, of whatever
files, had written when it was interrupted or ended with an error; `B` says where it may be interrupted.  `late`: the
update is interrupted when the root inventory has been written; it counts. -/
inductive RoughRun (w : World) (env : Env) (plain : Bool) (blank : Inv) (ls : List (Str → Res Str)) (a : CreateArgs)
    (D : Str → Bool → Session → List InFile → History → Prop) (B : Str → List FsOp → Prop) : FS → (Str → History) → Prop where
  | start (fs : FS) : RoughRun w env plain blank ls a D B fs (fun _ => [])
  | aside {fs : FS} {H : Str → History} (t : List FsOp) (run : RoughRun w env plain blank ls a D B fs H)
      (outside : ∀ id, H id ≠ [] → Outside (rootPath ls id).1 t) : RoughRun w env plain blank ls a D B (applyOps fs t) H
  | add {fs : FS} {H : Str → History} (id : Str) (s : Session) (dup : Bool) (files : List InFile)
      (run : RoughRun w env plain blank ls a D B fs H) (args : GoodArgs a id) (new : objectExists ls fs id = .ok false)
      (apart : ∀ id', H id' ≠ [] → Apart (rootPath ls id).1 (rootPath ls id').1)
      (good : D id dup s files []) (ok : (addCmd w env plain blank ls a fs id s).2 = none) :
      RoughRun w env plain blank ls a D B (applyOps fs (addCmd w env plain blank ls a fs id s).1)
        (fun i => if i = id then [Replaced w files (fun _ _ => False)] else H i)
  | update {fs : FS} {H : Str → History} (id : Str) (s : Session) (dup : Bool) (files : List InFile)
      (run : RoughRun w env plain blank ls a D B fs H) (there : H id ≠ [])
      (good : D id dup s files (H id)) (ok : (updateCmd w env plain blank ls a fs id s).2 = none) :
      RoughRun w env plain blank ls a D B (applyOps fs (updateCmd w env plain blank ls a fs id s).1)
        (fun i => if i = id then H id ++ [After w s files (H id).last] else H i)
  | late {fs : FS} {H : Str → History} (id : Str) (s : Session) (dup : Bool) (files : List InFile) (t : List FsOp)
      (run : RoughRun w env plain blank ls a D B fs H) (there : H id ≠ [])
      (good : D id dup s files (H id)) (ok : (updateCmd w env plain blank ls a fs id s).2 = none)
      (crash : RootDone (rootPath ls id).1 t (updateCmd w env plain blank ls a fs id s).1) :
      RoughRun w env plain blank ls a D B (applyOps fs t)
        (fun i => if i = id then H id ++ [After w s files (H id).last] else H i)
  | broken {fs : FS} {H : Str → History} (id : Str) (s : Session) (t : List FsOp)
      (run : RoughRun w env plain blank ls a D B fs H) (there : H id ≠ []) (names : SafeNames w s)
      (crash : CrashPrefix t (updateCmd w env plain blank ls a fs id s).1) (where_ : B (rootPath ls id).1 t) :
      RoughRun w env plain blank ls a D B (applyOps fs t) H

theorem crashPrefix_unlift {f : Str} {t u : List FsOp} (h : CrashPrefix t (u.map (FsOp.lift f))) :
    ∃ v, t = v.map (FsOp.lift f) ∧ CrashPrefix v u := by
  induction u generalizing t with
  | nil =>
    cases h
    exact ⟨[], rfl, .stop _⟩
  | cons op u ih =>
    rw [List.map_cons] at h
    generalize hg : FsOp.lift f op = g at h
    cases h with
    | stop => exact ⟨[], rfl, .stop _⟩
    | torn p b b' t =>
      cases op with
      | create x => cases hg
      | append x c =>
        simp only [FsOp.lift, FsOp.append.injEq] at hg
        obtain ⟨rfl, rfl⟩ := hg
        exact ⟨[.append x b], rfl, .torn _ _ _ _⟩
    | next _ h =>
      obtain ⟨v, rfl, hv⟩ := ih h
      exact ⟨op :: v, by rw [← hg]; rfl, .next _ hv⟩

theorem map_append_inv {f : Str} {u a b : List FsOp} (h : u.map (FsOp.lift f) = a ++ b) :
    ∃ a' b', u = a' ++ b' ∧ a = a'.map (FsOp.lift f) ∧ b = b'.map (FsOp.lift f) := by
  obtain ⟨a', b', h1, h2, h3⟩ := List.map_eq_append_iff.1 h
  exact ⟨a', b', h1, h2.symm, h3.symm⟩

theorem rootDone_unlift {f : Str} {t u : List FsOp} (h : RootDone f t (u.map (FsOp.lift f))) :
    ∃ v, t = v.map (FsOp.lift f) ∧ ∃ t1 t2 t3, u = t1 ++ t2 ∧ v = t1 ++ t3 ∧ CrashPrefix t3 t2 ∧ ∀ op ∈ t2, op.path ≠ rootInvPath := by
  obtain ⟨t1, t2, t3, h1, rfl, h3, h4⟩ := h
  obtain ⟨a, b, rfl, rfl, rfl⟩ := map_append_inv h1
  obtain ⟨c, rfl, hc⟩ := crashPrefix_unlift h3
  refine ⟨a ++ c, by rw [List.map_append], a, b, c, rfl, rfl, hc, fun op ho he => ?_⟩
  refine h4 _ (List.mem_map_of_mem ho) ?_
  rw [lift_path, he]

/-- what is written after the root inventory: the sidecar and the files of extensions -/
theorem after_root {w : World} {inv : Inv} {n : Nat} {s : Session} (hw : WF inv n) (he : (session w inv s).err = none)
    (hm : (session w inv s).obj.inv.modified = true) {t1 t2 : List FsOp} (h : (session w inv s).obj.trace = t1 ++ t2)
    (hr : ∀ op ∈ t2, op.path ≠ rootInvPath) :
    ∀ op ∈ t2, op.path = rootSidecarPath (session w inv s).obj.inv.digestAlg ∨ ∃ n, op.path = extPath n := by
  obtain ⟨f, t0, g1, g2, g3, g4, g5⟩ := session_stored hw he hm
  rw [g4] at h
  unfold rootWrites at h
  have h' : (sessionOpen w inv s).obj.trace ++ writeFile rootInvPath (w.enc (session w inv s).obj.inv) ++
      (writeFile (rootSidecarPath (session w inv s).obj.inv.digestAlg) (sidecarText (f (w.enc (session w inv s).obj.inv))) ++ extWrites s.exts) =
      t1 ++ t2 := by
    rw [← h]; simp only [List.append_assoc]
  have key : ∀ op ∈ writeFile (rootSidecarPath (session w inv s).obj.inv.digestAlg) (sidecarText (f (w.enc (session w inv s).obj.inv))) ++
      extWrites s.exts, op.path = rootSidecarPath (session w inv s).obj.inv.digestAlg ∨ ∃ n, op.path = extPath n := by
    intro op hop
    rcases List.mem_append.1 hop with h1 | h1
    · exact Or.inl (mem_writeFile_path h1)
    · exact Or.inr (mem_extWrites_path h1)
  rcases List.append_eq_append_iff.1 h' with ⟨c, h1, h2⟩ | ⟨c, h1, h2⟩
  · intro op hop
    exact key op (by rw [h2]; exact List.mem_append.2 (Or.inr hop))
  · rcases List.eq_nil_or_concat c with rfl | ⟨c', x, rfl⟩
    · intro op hop
      rw [h2, List.nil_append] at hop
      exact key op hop
    · exfalso
      have hx : x = .append rootInvPath (w.enc (session w inv s).obj.inv) := by
        have := congrArg List.getLast? h1
        unfold writeFile at this
        simpa using this.symm
      refine hr x (by rw [h2]; simp) ?_
      rw [hx]; rfl

/-- an update that was interrupted after the root inventory -/
theorem Carries.late {w : World} {inv : Inv} {n : Nat} {s : Session} {fs0 F : FS}
    (C : Carries inv.digestAlg fs0 (applyOps F (session w inv s).obj.trace))
    (hw : WF inv n) (ha : inv.digestAlg = "sha512".toList ∨ inv.digestAlg = "sha256".toList) (he : (session w inv s).err = none)
    (hm : (session w inv s).obj.inv.modified = true) {t1 t2 t3 : List FsOp} (h : (session w inv s).obj.trace = t1 ++ t2)
    (hc : CrashPrefix t3 t2) (hr : ∀ op ∈ t2, op.path ≠ rootInvPath) (hn : (mkeys F).Nodup) :
    Carries inv.digestAlg fs0 (applyOps F (t1 ++ t3)) := by
  have halg : (session w inv s).obj.inv.digestAlg = inv.digestAlg := by
    obtain ⟨_, _, _, g2, _, _, g5⟩ := session_stored hw he hm
    rw [g2]; exact g5.alg
  have key := after_root hw he hm h hr
  rw [halg] at key
  have same : ∀ q, q ≠ rootSidecarPath inv.digestAlg → (∀ n, q ≠ extPath n) →
      mget (applyOps F (t1 ++ t3)) q = mget (applyOps F (session w inv s).obj.trace) q := by
    intro q h1 h2
    have k2 : ∀ op ∈ t2, op.path ≠ q := by
      intro op ho heq
      rcases key op ho with h3 | ⟨n, h3⟩
      · exact h1 (heq.symm.trans h3)
      · exact h2 n (heq.symm.trans h3)
    have k3 : ∀ op ∈ t3, op.path ≠ q := by
      intro op ho heq
      obtain ⟨op', h3, h4⟩ := hc.path ho
      exact k2 op' h3 (h4.trans heq)
    rw [h, applyOps_append, applyOps_append, mget_applyOps_ne k3, mget_applyOps_ne k2]
  refine ⟨applyOps_nodup hn _, fun q hq hs => ?_, fun q b hsl hq hb => ?_⟩
  · rw [same q hs (fun n hc => hq (by rw [hc]; unfold extPath; simp))]
    exact C.top q hq hs
  · rw [same q (fun hc => rootSidecar_slash ha (hc ▸ hsl)) (fun n hc => hq ?_)]
    · exact C.kept q b hsl hq hb
    · rw [hc]
      exact topOf_append (a := "extensions".toList) (by decide) n

theorem CrashPrefix.lift {t u : List FsOp} (h : CrashPrefix t u) (f : Str) : CrashPrefix (t.map (FsOp.lift f)) (u.map (FsOp.lift f)) := by
  induction h with
  | stop => exact .stop _
  | torn => exact .torn _ _ _ _
  | next op _ ih => exact .next _ ih

theorem lift_render (f : Str) (bl : List Block) :
    (render bl).map (FsOp.lift f) = render (bl.map (fun b => (under f b.1, b.2))) := by
  induction bl with
  | nil => rfl
  | cons b bl ih =>
    rw [show b :: bl = [b] ++ bl from rfl, render_append, List.map_append, ih, List.map_append, render_append]
    obtain ⟨p, d⟩ := b
    cases d <;> rfl

section
variable {w : World} {env : Env} {plain : Bool} {blank : Inv} {ls : List (Str → Res Str)} {a : CreateArgs} {h : Bytes → Str}

/-- the folder of the object has an archived object, and may have more in its sub folders -/
def CarriesHistory (w : World) (ls : List (Str → Res Str)) (a : CreateArgs) (h : Bytes → Str) (fs : FS) (id : Str) (H : History) : Prop :=
  (rootPath ls id).2 = false ∧ ∃ fs0 r, ValidObject w fs0 0 H.length r ∧ Archived w h a id fs0 (loadedInv 0 r) H ∧
    Carries r.inv.digestAlg fs0 (subFS fs (rootPath ls id).1)

theorem CarriesHistory.outside {fs : FS} {id : Str} {H : History} (A : CarriesHistory w ls a h fs id H) {t : List FsOp}
    (ho : Outside (rootPath ls id).1 t) : CarriesHistory w ls a h (applyOps fs t) id H := by
  unfold CarriesHistory
  rw [subFS_outside ho]
  exact A

theorem HoldsHistory.carries {fs : FS} {id : Str} {H : History} (A : HoldsHistory w ls a h fs id H) : CarriesHistory w ls a h fs id H := by
  obtain ⟨h1, r, O, A⟩ := A
  exact ⟨h1, _, r, O, A, Carries.refl O.nodup⟩

/-- what an update does to it -/
theorem CarriesHistory.update {fs : FS} {id : Str} {H : History} {fs0 : FS} {r : RawInv} (hl : (rootPath ls id).2 = false)
    (O : ValidObject w fs0 0 H.length r) (C : Carries r.inv.digestAlg fs0 (subFS fs (rootPath ls id).1)) (s : Session) :
    updateCmd w env plain blank ls a fs id s = inFolder (rootPath ls id).1 (session w (loadedInv 0 r) s) := by
  obtain ⟨f, hf⟩ := C.load O env plain blank hl rfl
  have hx := C.exists O hl rfl
  unfold updateCmd addObjectByPath
  simp only [hx, hf]

theorem manifest_kept {alg : Str} {fs0 F : FS} {inv : Inv} {p N : Nat} (I : Intact w fs0 p N inv) (C : Carries alg fs0 F) {d : Str} {m : List Str} {c : Str}
    (hd : (d, m) ∈ inv.manifest) (hc : c ∈ m) : mget F c = mget fs0 c := by
  obtain ⟨b, _, hb, _⟩ := I.files.content d m c hd hc
  obtain ⟨v, ver, q, hv, rfl⟩ := I.ok.content d m c hd hc
  obtain ⟨k, _, _, rfl⟩ := I.ok.wf.1.mem_keys.1 (mem_mkeys_of_mem hv)
  rw [hb]
  refine C.kept _ b (by simp) ?_ hb
  rw [List.append_assoc, List.cons_append, topOf_append (verName_noSlash _ _)]
  intro he
  have := congrArg List.head? he
  rw [verName_head] at this
  exact absurd this (by decide)

theorem CarriesHistory.readable {fs : FS} {id : Str} {H : History} (A : CarriesHistory w ls a h fs id H) (hH : H ≠ []) :
    Readable w env plain blank ls fs id H := by
  obtain ⟨hl, fs0, r, O, A, C⟩ := A
  obtain ⟨f, hf⟩ := C.load O env plain blank hl rfl
  have hsame : ∀ v E, Yields w (loadedInv 0 r) fs0 v E → Yields w (loadedInv 0 r) (subFS fs (rootPath ls id).1) v E := by
    intro v E hy xp wm hxp
    rw [extract_congr (fun d m i hd hi => manifest_kept A.intact C hd hi)]
    exact hy xp wm hxp
  obtain ⟨h1, h2⟩ := A.yields hH
  exact ⟨_, f, hf, A.id, fun k E hk => hsame _ _ (h1 k E hk), hsame _ _ h2⟩

/-- the objects of a run, with what broken updates left -/
theorem roughRun_holds (hc : Codec w) (hx : HexHash w) (hL : LowerHash w) (ht : ∀ t, w.time (w.time t) = w.time t)
    (hh : w.hash a.alg = some h) {fs : FS} {H : Str → History}
    (hr : RoughRun w env plain blank ls a (Deposit w h a) RootUntouched fs H) :
    (∀ id, H id ≠ [] → CarriesHistory w ls a h fs id (H id)) ∧
    ∀ id id', H id ≠ [] → H id' ≠ [] → id ≠ id' → Apart (rootPath ls id).1 (rootPath ls id').1 := by
  induction hr with
  | start fs => exact ⟨fun id hid => absurd rfl hid, fun id _ hid => absurd rfl hid⟩
  | aside t _ ho ih => exact ⟨fun id hid => (ih.1 id hid).outside (ho id hid), ih.2⟩
  | @add fs H id s dup files _ hga hex hap D he ih =>
    have hnew := (archiveRun_holds (env := env) (plain := plain) (blank := blank) hc hx hL ht hh
      (.add id s dup files (.start fs) hga hex (fun _ hn => absurd rfl hn) D he)).1 id (by simp)
    simp only [if_pos] at hnew
    obtain ⟨u, hu, _⟩ := addCmd_free (w := w) (env := env) (plain := plain) (blank := blank) (a := a) (s := s) hex
    refine ⟨fun j hj => ?_, fun j j' hj hj' hne => ?_⟩
    · by_cases hji : j = id
      · subst hji
        simp only [if_pos]
        exact hnew.carries
      · simp only [if_neg hji] at hj ⊢
        refine (ih.1 j hj).outside ?_
        rw [hu]
        exact outside_lift (hap j hj) _
    · by_cases hji : j = id
      · subst hji
        simp only [if_neg (Ne.symm hne)] at hj'
        exact hap j' hj'
      · simp only [if_neg hji] at hj
        by_cases hji' : j' = id
        · subst hji'
          exact (hap j hj).symm
        · simp only [if_neg hji'] at hj'
          exact ih.2 j j' hj hj' hne
  | @update fs H id s dup files _ hid D he ih =>
    obtain ⟨hl, fs0, r, O, A, C⟩ := ih.1 id hid
    have hup := CarriesHistory.update (env := env) (plain := plain) (blank := blank) (a := a) hl O C s
    rw [hup] at he ⊢
    refine ⟨fun j hj => ?_, fun j j' hj hj' hne => ?_⟩
    · by_cases hji : j = id
      · subst hji
        simp only [if_pos]
        obtain ⟨r', O', A'⟩ := A.step hc hx hL ht D he
        obtain ⟨bl, hbl⟩ := session_render (s := s) A.hash
        refine ⟨hl, _, r', by rw [List.length_append]; exact O', A', ?_⟩
        unfold inFolder
        rw [subFS_applyOps_lift, hbl, show r'.inv.digestAlg = r.inv.digestAlg from A'.alg.trans A.alg.symm]
        exact C.render bl
      · simp only [if_neg hji] at hj ⊢
        exact (ih.1 j hj).outside (outside_lift (ih.2 id j hid hj (Ne.symm hji)) _)
    · refine ih.2 j j' ?_ ?_ hne
      · by_cases hjj : j = id
        · rw [hjj]; exact hid
        · simpa only [if_neg hjj] using hj
      · by_cases hjj : j' = id
        · rw [hjj]; exact hid
        · simpa only [if_neg hjj] using hj'
  | @late fs H id s dup files t _ hid D he hcr ih =>
    obtain ⟨hl, fs0, r, O, A, C⟩ := ih.1 id hid
    have hup := CarriesHistory.update (env := env) (plain := plain) (blank := blank) (a := a) hl O C s
    rw [hup] at he hcr
    obtain ⟨u, rfl, t1, t2, t3, k1, rfl, k3, k4⟩ := rootDone_unlift hcr
    refine ⟨fun j hj => ?_, fun j j' hj hj' hne => ?_⟩
    · by_cases hji : j = id
      · subst hji
        simp only [if_pos]
        obtain ⟨r', O', A'⟩ := A.step hc hx hL ht D he
        obtain ⟨bl, hbl⟩ := session_render (s := s) A.hash
        refine ⟨hl, _, r', by rw [List.length_append]; exact O', A', ?_⟩
        rw [subFS_applyOps_lift, show r'.inv.digestAlg = r.inv.digestAlg from A'.alg.trans A.alg.symm]
        have hmod := (goodUpdate_clean hx hL A.staged.ok A.clear D.adds A.hash (D.good A.toInArchive) he (fun h0 => absurd h0 (Nat.lt_irrefl 0))).modified
        have C1 : Carries r.inv.digestAlg (applyOps fs0 (session w (loadedInv 0 r) s).obj.trace)
            (applyOps (subFS fs (rootPath ls j).1) (session w (loadedInv 0 r) s).obj.trace) := by
          rw [hbl]; exact C.render bl
        exact C1.late A.intact.ok.wf O.alg he hmod k1 k3 k4 C.nodup
      · simp only [if_neg hji] at hj ⊢
        exact (ih.1 j hj).outside (outside_lift (ih.2 id j hid hj (Ne.symm hji)) _)
    · refine ih.2 j j' ?_ ?_ hne
      · by_cases hjj : j = id
        · rw [hjj]; exact hid
        · simpa only [if_neg hjj] using hj
      · by_cases hjj : j' = id
        · rw [hjj]; exact hid
        · simpa only [if_neg hjj] using hj'
  | @broken fs H id s t _ hid hs hcr hB ih =>
    obtain ⟨hl, fs0, r, O, A, C⟩ := ih.1 id hid
    rw [CarriesHistory.update (env := env) (plain := plain) (blank := blank) (a := a) hl O C s] at hcr
    unfold inFolder at hcr
    obtain ⟨u, rfl, hu⟩ := crashPrefix_unlift hcr
    refine ⟨fun j hj => ?_, ih.2⟩
    by_cases hji : j = id
    · subst hji
      refine ⟨hl, fs0, r, O, A, ?_⟩
      rw [subFS_applyOps_lift]
      refine C.crash A.intact hs hu (fun op ho he => ?_)
      refine hB _ (List.mem_map_of_mem ho) ?_
      rw [lift_path, he]
    · exact (ih.1 j hj).outside (outside_lift (ih.2 id j hid hj (Ne.symm hji)) _)

/-- **C164.** After any run of commands in which updates may fail or be interrupted before they reach the root inventory,
every object opens under its id and every version it was given comes out with exactly its files; repeated updates count as
if nothing had happened before. -/
theorem C164_repeat_partial (hc : Codec w) (hx : HexHash w) (hL : LowerHash w) (ht : ∀ t, w.time (w.time t) = w.time t)
    (hh : w.hash a.alg = some h) {fs : FS} {H : Str → History}
    (hr : RoughRun w env plain blank ls a (Deposit w h a) RootUntouched fs H) {id : Str} (hid : H id ≠ []) :
    Readable w env plain blank ls fs id (H id) :=
  ((roughRun_holds hc hx hL ht hh hr).1 id hid).readable hid

/-- An update that ends with an error is one that broke off before the root inventory. -/
theorem C164_failed {fs : FS} {H : Str → History} (hc : Codec w) (hx : HexHash w) (hL : LowerHash w)
    (ht : ∀ t, w.time (w.time t) = w.time t) (hh : w.hash a.alg = some h)
    (hr : RoughRun w env plain blank ls a (Deposit w h a) RootUntouched fs H) {id : Str} (hid : H id ≠ []) {s : Session}
    (hs : SafeNames w s) (he : (updateCmd w env plain blank ls a fs id s).2 ≠ none) :
    RoughRun w env plain blank ls a (Deposit w h a) RootUntouched
      (applyOps fs (updateCmd w env plain blank ls a fs id s).1) H := by
  obtain ⟨hl, fs0, r, O, A, C⟩ := (roughRun_holds hc hx hL ht hh hr).1 id hid
  have hup := CarriesHistory.update (env := env) (plain := plain) (blank := blank) (a := a) hl O C s
  refine .broken id s _ hr hid hs (CrashPrefix.refl _) ?_
  rw [hup] at he ⊢
  unfold inFolder at he ⊢
  intro op hop heq
  obtain ⟨o, ho, rfl⟩ := List.mem_map.1 hop
  rw [lift_path] at heq
  rw [session_failed_trace he] at ho
  exact newPath_ne_old A.intact.ok.cdir (fun p a i hu hi => hs (p, a) hu i hi) (sessionOpen_trace A.intact.ok.wf s o ho)
    (Or.inl (under_inj.1 heq)) rfl

/-- **C164.** What an update left that broke off does not change what the next one does; and a file that the one left off
did not touch, or that the next one writes, is afterwards as if the first had never been. -/
theorem C164_as_if {fs : FS} {H : Str → History} (hc : Codec w) (hx : HexHash w) (hL : LowerHash w)
    (ht : ∀ t, w.time (w.time t) = w.time t) (hh : w.hash a.alg = some h)
    (hr : RoughRun w env plain blank ls a (Deposit w h a) RootUntouched fs H) {id : Str} (hid : H id ≠ []) {s : Session} {t : List FsOp}
    (hs : SafeNames w s) (hcr : CrashPrefix t (updateCmd w env plain blank ls a fs id s).1) (hB : RootUntouched (rootPath ls id).1 t)
    (s' : Session) : updateCmd w env plain blank ls a (applyOps fs t) id s' = updateCmd w env plain blank ls a fs id s' ∧
      ∀ p, ((∀ op ∈ t, op.path ≠ p) ∨ p ∈ creates (updateCmd w env plain blank ls a fs id s').1) →
        mget (applyOps (applyOps fs t) (updateCmd w env plain blank ls a (applyOps fs t) id s').1) p =
          mget (applyOps fs (updateCmd w env plain blank ls a fs id s').1) p := by
  obtain ⟨hl, fs0, r, O, A, C⟩ := (roughRun_holds hc hx hL ht hh hr).1 id hid
  have hup := fun s => CarriesHistory.update (env := env) (plain := plain) (blank := blank) (a := a) hl O C s
  rw [hup] at hcr
  unfold inFolder at hcr
  obtain ⟨u, rfl, hu⟩ := crashPrefix_unlift hcr
  have C' : Carries r.inv.digestAlg fs0 (subFS (applyOps fs (u.map (FsOp.lift (rootPath ls id).1))) (rootPath ls id).1) := by
    rw [subFS_applyOps_lift]
    refine C.crash A.intact hs hu (fun op ho he => ?_)
    refine hB _ (List.mem_map_of_mem ho) ?_
    rw [lift_path, he]
  have hup' := CarriesHistory.update (env := env) (plain := plain) (blank := blank) (a := a) hl O C' s'
  refine ⟨hup'.trans (hup s').symm, fun p hp => ?_⟩
  rw [hup', hup s'] at *
  rcases hp with hp | hp
  · exact mget_applyOps_congr _ (mget_applyOps_ne hp)
  · obtain ⟨bl, hbl⟩ := session_render (s := s') A.hash
    unfold inFolder at hp ⊢
    rw [hbl, lift_render] at hp ⊢
    rw [creates_render] at hp
    exact mget_created hp _ _

end

/-- nothing has been written into the root inventory, but it may have been opened for that -/
def RootOpened (folder : Str) (t : List FsOp) : Prop := RootUntouched folder t.dropLast

/-- the full statement: also if the update breaks off when the root inventory is opened for writing -/
def C164_full : Prop := ∀ (w : World) (env : Env) (plain : Bool) (blank : Inv) (ls : List (Str → Res Str)) (a : CreateArgs) (h : Bytes → Str)
    (fs : FS) (H : Str → History) (id : Str), Codec w → HexHash w → LowerHash w → (∀ t, w.time (w.time t) = w.time t) →
    w.hash a.alg = some h → RoughRun w env plain blank ls a (Deposit w h a) RootOpened fs H → H id ≠ [] →
    Readable w env plain blank ls fs id (H id)

/-! ## Concrete cases -/

/-- an update of `a` is interrupted while it writes `h` -/
def arBroken : List InFile := [⟨"content".toList, "h".toList, [5, 5, 5]⟩]

def arTorn : List FsOp := [.create "a/v2/content/h".toList, .append "a/v2/content/h".toList [5]]

theorem ar_torn : CrashPrefix arTorn (arUpdate "a" arFs1 arBroken).1 := by
  rw [ar_update_eq rfl]
  have h : (inFolder (rootPath flatLayout "a".toList).1 (session exKeep arInv1 (rtSession arBroken))).1.take 2 =
      [.create "a/v2/content/h".toList, .append "a/v2/content/h".toList ([5] ++ [5, 5])] := by decide +kernel
  rw [← List.take_append_drop 2 (inFolder _ _).1, h]
  exact .next _ (.torn _ _ _ _)

theorem ar_rough1 {B : Str → List FsOp → Prop} :
    RoughRun exKeep exEnv true (blankInv [] []) flatLayout exArgs (Deposit exKeep rtHash exArgs) B arFs1
    (fun i => if i = "a".toList then [Replaced exKeep rtFiles (fun _ _ => False)] else []) :=
  .add "a".toList (rtSession rtFiles) true rtFiles (.start []) exArgs_good (by decide) (fun _ h => absurd rfl h)
    (deposit_of_list (ar_fit1 _ (Or.inl rfl)) ar_placed1) (by decide)

theorem ar_brokenNames : SafeNames exKeep (rtSession arBroken) :=
  rt_names (fun f hf => by
    have h : ∀ f ∈ arBroken, walk 0 (splitOn '/' f.path) = some (0 + 1) := by decide
    exact ⟨0, h f hf⟩)

theorem ar_untouched : RootUntouched (rootPath flatLayout "a".toList).1 arTorn := by unfold RootUntouched; decide

theorem ar_rough2 : RoughRun exKeep exEnv true (blankInv [] []) flatLayout exArgs (Deposit exKeep rtHash exArgs) RootUntouched
    (applyOps arFs1 arTorn) (fun i => if i = "a".toList then [Replaced exKeep rtFiles (fun _ _ => False)] else []) :=
  .broken "a".toList (rtSession arBroken) arTorn ar_rough1 (by simp only [if_true]; exact List.cons_ne_nil _ _)
    ar_brokenNames ar_torn ar_untouched

/-- then another update is run -/
noncomputable def arFsRough : FS := applyOps (applyOps arFs1 arTorn) (arUpdate "a" (applyOps arFs1 arTorn) arMore).1

theorem ar_as_if (files : List InFile) : arUpdate "a" (applyOps arFs1 arTorn) files = arUpdate "a" arFs1 files :=
  (C164_as_if (codecWorld_codec _) (codecWorld_hex _) exKeep_lower (fun _ => rfl) (a := exArgs) rtHash_eq ar_rough1 (id := "a".toList)
    (by simp only [if_true]; exact List.cons_ne_nil _ _) ar_brokenNames ar_torn ar_untouched (rtSession files)).1

theorem ar_rough3 : ∃ H : Str → History, RoughRun exKeep exEnv true (blankInv [] []) flatLayout exArgs (Deposit exKeep rtHash exArgs)
    RootUntouched arFsRough H ∧
    H "a".toList = histOf [[("c/d".toList, [1, 2]), ("e".toList, [7]), ("f".toList, [1, 2])],
      [("e".toList, [9, 9, 9, 9]), ("f".toList, [1, 2]), ("g".toList, [7]), ("c/d".toList, [1, 2])]] := by
  refine ⟨_, .update "a".toList (rtSession arMore) true arMore ar_rough2 ?_ ?_ ?_, ?_⟩
  · simp only [if_true]; exact List.cons_ne_nil _ _
  · rw [if_pos rfl, ar_hist1]
    exact deposit_of_list ar_fit3 ar_placed3
  · show (arUpdate "a" (applyOps arFs1 arTorn) arMore).2 = none
    rw [ar_as_if, ar_update_eq rfl]
    decide
  · simp only [if_true]
    rw [ar_hist1]
    refine (histOf_snoc false _ _).trans ?_
    rfl

/-- the hypotheses of C164 are met: an interrupted update, then another; both versions come out -/
theorem ar_readable : Readable exKeep exEnv true (blankInv [] []) flatLayout arFsRough "a".toList
    (histOf [[("c/d".toList, [1, 2]), ("e".toList, [7]), ("f".toList, [1, 2])],
      [("e".toList, [9, 9, 9, 9]), ("f".toList, [1, 2]), ("g".toList, [7]), ("c/d".toList, [1, 2])]]) := by
  obtain ⟨H, hr, hH⟩ := ar_rough3
  rw [← hH]
  exact C164_repeat_partial (codecWorld_codec _) (codecWorld_hex _) exKeep_lower (fun _ => rfl) (a := exArgs) rtHash_eq hr
    (by rw [hH]; exact List.cons_ne_nil _ _)

theorem ar_cleanMore : CleanSession exKeep 0 1 arInv1 (rtSession arMore) where
  names := (fit_of_list ar_fit3).names
  rounds := rfl
  distinct := by decide
  completes := by decide
  modified := by decide
  paths := headPaths_of (p := 0) (N := 2) (validInv_of (by decide))
  width := by decide

theorem ar_intact1 : Intact exKeep (subFS arFs1 (rootPath flatLayout "a".toList).1) 0 1 arInv1 := by
  rw [ar_sub1]
  exact (ex_valid (intact_new exArgs_good rfl).1 ar_clean1).2

/-- what the second update alone makes of the object -/
theorem ar_validMore : ValidObject exKeep (applyOps (subFS arFs1 (rootPath flatLayout "a".toList).1)
    (session exKeep arInv1 (rtSession arMore)).obj.trace) 0 2
    (rawOf (stampInv (fun t => t) (session exKeep arInv1 (rtSession arMore)).obj.inv)) :=
  (ex_valid ar_intact1 ar_cleanMore).1

theorem ar_subRough : subFS arFsRough (rootPath flatLayout "a".toList).1 =
    applyOps (applyOps (subFS arFs1 (rootPath flatLayout "a".toList).1)
      [.create "v2/content/h".toList, .append "v2/content/h".toList [5]]) (session exKeep arInv1 (rtSession arMore)).obj.trace := by
  unfold arFsRough
  rw [ar_as_if, ar_update_eq rfl]
  unfold inFolder
  rw [subFS_applyOps_lift, ← subFS_applyOps_lift]
  rfl

/-- ... but the object is not valid any more: what the first update left is in the folder of the version. -/
theorem C164_leftover : mget arFsRough "a/v2/content/h".toList = some [5] ∧
    ¬ ∃ N r, ValidObject exKeep (subFS arFsRough (rootPath flatLayout "a".toList).1) 0 N r := by
  have hno : ∀ op ∈ (session exKeep arInv1 (rtSession arMore)).obj.trace, op.path ≠ "v2/content/h".toList := by decide +kernel
  have h1 : mget (subFS arFsRough (rootPath flatLayout "a".toList).1) "v2/content/h".toList = some [5] := by
    rw [ar_subRough, mget_applyOps_ne hno]
    simp [applyOps, FsOp.apply]
  refine ⟨by rw [mget_subFS] at h1; exact h1, ?_⟩
  rintro ⟨N, r, O⟩
  have hr : r = rawOf (stampInv (fun t => t) (session exKeep arInv1 (rtSession arMore)).obj.inv) := by
    obtain ⟨b, _, _, b1, b2, _⟩ := O.stored
    obtain ⟨c, _, _, c1, c2, _⟩ := ar_validMore.stored
    have hroot : ∀ op ∈ [FsOp.create "v2/content/h".toList, .append "v2/content/h".toList [5]], op.path ≠ rootInvPath := by decide
    rw [ar_subRough, mget_applyOps_congr _ (mget_applyOps_ne hroot), c1] at b1
    cases b1
    rw [b2] at c2
    cases c2; rfl
  obtain ⟨ver, hv⟩ : ∃ ver, ("v2".toList, ver) ∈ r.inv.versions := by
    rw [hr]
    exact mem_mkeys_iff.1 (by decide +kernel)
  have hcd : r.inv.contentDir = "content".toList := by rw [hr]; decide +kernel
  obtain ⟨d, m, hd, hm⟩ := O.files.complete "v2".toList ver "h".toList [5] hv (by rw [hcd]; exact h1)
  rw [hr] at hd
  obtain ⟨b, _, hb, _⟩ := ar_validMore.files.content d m _ hd hm
  rw [hcd] at hb
  rw [show "v2".toList ++ '/' :: "content".toList ++ '/' :: "h".toList = "v2/content/h".toList from rfl, mget_applyOps_ne hno] at hb
  have : mget (subFS arFs1 (rootPath flatLayout "a".toList).1) "v2/content/h".toList = none := by decide +kernel
  rw [this] at hb; cases hb

/-- **C164 fails** if the update breaks off when the root inventory has been opened for writing: the object cannot be opened. -/
theorem C164_full_fails : ¬ C164_full := by
  intro hf
  obtain ⟨f, t0, g1, g2, g3, g4, g5⟩ := session_stored (w := exKeep) (inv := arInv1) (n := 1) (s := rtSession arMore) ar_intact1.ok.wf
    (by decide) (by decide)
  have h1 : CrashPrefix ((sessionOpen exKeep arInv1 (rtSession arMore)).obj.trace ++ [.create rootInvPath])
      (session exKeep arInv1 (rtSession arMore)).obj.trace := by
    rw [g4]
    exact (CrashPrefix.next _ (CrashPrefix.stop _)).append_left _
  have hcr := h1.lift (rootPath flatLayout "a".toList).1
  have hB : RootOpened (rootPath flatLayout "a".toList).1
      (((sessionOpen exKeep arInv1 (rtSession arMore)).obj.trace ++ [FsOp.create rootInvPath]).map (FsOp.lift (rootPath flatLayout "a".toList).1)) := by
    unfold RootOpened RootUntouched
    decide +kernel
  obtain ⟨i, f, h3, _⟩ := hf exKeep exEnv true (blankInv [] []) flatLayout exArgs rtHash _ _ "a".toList (codecWorld_codec _)
    (codecWorld_hex _) exKeep_lower (fun _ => rfl) rtHash_eq
    (.broken "a".toList (rtSession arMore) _ ar_rough1 (by simp only [if_true]; exact List.cons_ne_nil _ _) (fit_of_list ar_fit3).names
      (show CrashPrefix _ (arUpdate "a" arFs1 arMore).1 by rw [ar_update_eq rfl]; exact hcr) hB)
    (by simp only [if_true]; exact List.cons_ne_nil _ _)
  have h2 : mget (applyOps (subFS arFs1 (rootPath flatLayout "a".toList).1)
      ((sessionOpen exKeep arInv1 (rtSession arMore)).obj.trace ++ [.create rootInvPath])) rootInvPath = some [] := by
    rw [applyOps_append]; simp [applyOps, FsOp.apply]
  have h4 : ∀ fs : FS, mget fs rootInvPath = some [] → loadRoot exKeep exEnv fs = .error (.error "cannot unmarshal json") := by
    intro fs h
    unfold loadRoot
    have : exKeep.dec [] = none := (codecWorld_codec _).empty
    simp only [h, this]
  unfold loadByID loadByFolder loadInventory at h3
  rw [subFS_applyOps_lift, h2, h4 _ h2] at h3
  split at h3
  · cases h3
  · split at h3
    · cases h3
    · cases h3

/-- an update is interrupted while the sidecar of the root inventory is written: it counts -/
noncomputable def arLate : List FsOp :=
  (arUpdate "a" arFs1 arMore).1.take ((arUpdate "a" arFs1 arMore).1.length - 1)

theorem ar_late : RootDone (rootPath flatLayout "a".toList).1 arLate (arUpdate "a" arFs1 arMore).1 := by
  refine ⟨arLate, (arUpdate "a" arFs1 arMore).1.drop ((arUpdate "a" arFs1 arMore).1.length - 1), [], (List.take_append_drop _ _).symm,
    (List.append_nil _).symm, .stop _, ?_⟩
  rw [ar_update_eq rfl]
  unfold RootUntouched
  decide +kernel

theorem ar_readableLate : Readable exKeep exEnv true (blankInv [] []) flatLayout (applyOps arFs1 arLate) "a".toList
    (histOf [[("c/d".toList, [1, 2]), ("e".toList, [7]), ("f".toList, [1, 2])],
      [("e".toList, [9, 9, 9, 9]), ("f".toList, [1, 2]), ("g".toList, [7]), ("c/d".toList, [1, 2])]]) := by
  obtain ⟨H, hr, hH⟩ : ∃ H : Str → History, RoughRun exKeep exEnv true (blankInv [] []) flatLayout exArgs (Deposit exKeep rtHash exArgs)
      RootUntouched (applyOps arFs1 arLate) H ∧
      H "a".toList = histOf [[("c/d".toList, [1, 2]), ("e".toList, [7]), ("f".toList, [1, 2])],
        [("e".toList, [9, 9, 9, 9]), ("f".toList, [1, 2]), ("g".toList, [7]), ("c/d".toList, [1, 2])]] := by
    refine ⟨_, .late "a".toList (rtSession arMore) true arMore arLate ar_rough1 ?_ ?_ ?_ ar_late, ?_⟩
    · simp only [if_true]; exact List.cons_ne_nil _ _
    · rw [if_pos rfl, ar_hist1]
      exact deposit_of_list ar_fit3 ar_placed3
    · show (arUpdate "a" arFs1 arMore).2 = none
      rw [ar_update_eq rfl]
      decide
    · simp only [if_true]
      rw [ar_hist1]
      refine (histOf_snoc false _ _).trans ?_
      rfl
  rw [← hH]
  exact C164_repeat_partial (codecWorld_codec _) (codecWorld_hex _) exKeep_lower (fun _ => rfl) (a := exArgs) rtHash_eq hr
    (by rw [hH]; exact List.cons_ne_nil _ _)

end Gocfl
