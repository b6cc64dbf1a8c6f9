import Verif.Model.Enumerate

/-!
# C58: enumeration of objects
-/

namespace Gocfl

theorem reach_nil {d x : FDir} (h : Reach d [] x) : x = d := by cases h; rfl

theorem reach_cons {d x : FDir} {n : Str} {p : List Str} :
    Reach d (n :: p) x ↔ ∃ sub, (n, sub) ∈ d.dirs ∧ Reach sub p x := by
  constructor
  · intro h
    cases h with
    | step h t => exact ⟨_, h, t⟩
  · rintro ⟨sub, h, t⟩; exact .step h t

theorem Reach.trans {d x y : FDir} {p q : List Str} (h : Reach d p x) (h' : Reach x q y) : Reach d (p ++ q) y := by
  induction h with
  | here => exact h'
  | step hm _ ih => exact .step hm (ih h')

theorem GoodNames.sub {d x : FDir} {p : List Str} (h : GoodNames d) (hr : Reach d p x) : GoodNames x :=
  fun q y hy => h (p ++ q) y (hr.trans hy)

theorem NoNesting.sub {d x : FDir} {p : List Str} (h : NoNesting d) (hr : Reach d p x) : NoNesting x :=
  fun q y r z hy => h (p ++ q) y r z (hr.trans hy)

/-! ## All trees: every listed folder holds a file and is listed once -/

theorem mem_recurseObjects {d : FDir} {base p : List Str} (h : p ∈ recurseObjects base d) :
    ∃ q x, p = base ++ q ∧ Reach d q x ∧ ∃ n ∈ x.files, isDotName n = false := by
  induction d generalizing base with
  | nil => simp [recurseObjects] at h
  | file n rest ih =>
    rw [recurseObjects] at h
    split at h
    · obtain ⟨q, x, h1, h2, m, hm, hd⟩ := ih h
      cases h2 with
      | here => exact ⟨[], .file n rest, h1, .here _, m, by simp [FDir.files, hm], hd⟩
      | step h2 t => exact ⟨_, x, h1, .step h2 t, m, hm, hd⟩
    · rename_i hn
      rw [List.mem_singleton] at h
      exact ⟨[], .file n rest, by simp [h], .here _, n, by simp [FDir.files], by simpa using hn⟩
  | dir n sub rest ih1 ih2 =>
    rw [recurseObjects] at h
    rcases List.mem_append.1 h with h | h
    · obtain ⟨q, x, h1, h2, h3⟩ := ih1 h
      exact ⟨n :: q, x, by rw [h1]; simp, .step (by simp [FDir.dirs]) h2, h3⟩
    · obtain ⟨q, x, h1, h2, m, hm, hd⟩ := ih2 h
      cases h2 with
      | here => exact ⟨[], .dir n sub rest, h1, .here _, m, by simpa [FDir.files] using hm, hd⟩
      | step h2 t => exact ⟨_, x, h1, .step (by simp [FDir.dirs, h2]) t, m, hm, hd⟩

/-- the names of the sub directories are different, everywhere -/
def DistinctDirs : FDir → Prop
  | .nil => True
  | .file _ rest => DistinctDirs rest
  | .dir n sub rest => (∀ e ∈ rest.dirs, e.1 ≠ n) ∧ DistinctDirs sub ∧ DistinctDirs rest

theorem GoodNames.distinct {d : FDir} (h : GoodNames d) : DistinctDirs d := by
  have key : ∀ d : FDir, (∀ q x, q ≠ [] → Reach d q x → (x.dirs.map (·.1)).Nodup) → (d.dirs.map (·.1)).Nodup →
      DistinctDirs d := by
    intro d
    induction d with
    | nil => intro _ _; trivial
    | file n rest ih =>
      intro h1 h2
      refine ih (fun q x hq hx => ?_) h2
      cases hx with
      | here => exact absurd rfl hq
      | step hm t => exact h1 _ x hq (.step hm t)
    | dir n sub rest ih1 ih2 =>
      intro h1 h2
      simp only [FDir.dirs, List.map_cons, List.nodup_cons] at h2
      refine ⟨?_, ?_, ?_⟩
      · intro e he hn
        exact h2.1 (List.mem_map.2 ⟨e, he, hn⟩)
      · refine ih1 (fun q x _ hx => h1 (n :: q) x (by simp) (.step (by simp [FDir.dirs]) hx)) ?_
        exact h1 [n] sub (by simp) (.step (by simp [FDir.dirs]) (.here _))
      · refine ih2 (fun q x hq hx => ?_) h2.2
        cases hx with
        | here => exact absurd rfl hq
        | step hm t => exact h1 _ x hq (.step (List.mem_cons_of_mem _ hm) t)
  refine key d (fun q x _ hx => ?_) ?_
  · exact (List.nodup_append.1 (h q x hx).1).1
  · exact (List.nodup_append.1 (h [] d (.here _)).1).1

theorem mem_recurse_first {d : FDir} {base p : List Str} (h : p ∈ recurseObjects base d) :
    p = base ∨ ∃ e ∈ d.dirs, ∃ q, p = base ++ e.1 :: q := by
  obtain ⟨q, x, h1, h2, _⟩ := mem_recurseObjects h
  cases h2 with
  | here => left; simpa using h1
  | step hm t => exact .inr ⟨_, hm, _, h1⟩

theorem nodup_recurseObjects {d : FDir} (h : DistinctDirs d) (base : List Str) : (recurseObjects base d).Nodup := by
  induction d generalizing base with
  | nil => simp [recurseObjects]
  | file n rest ih =>
    rw [recurseObjects]
    split
    · exact ih h base
    · simp
  | dir n sub rest ih1 ih2 =>
    obtain ⟨h1, h2, h3⟩ := h
    rw [recurseObjects, List.nodup_append]
    refine ⟨ih1 h2 _, ih2 h3 _, ?_⟩
    rintro a ha b hb rfl
    obtain ⟨q, _, hq, _⟩ := mem_recurseObjects ha
    rcases mem_recurse_first hb with hb | ⟨e, he, r, hb⟩
    · rw [hb] at hq
      have := congrArg List.length hq
      simp at this
    · rw [hb] at hq
      simp only [List.append_assoc, List.append_cancel_left_eq, List.cons_append, List.nil_append, List.cons.injEq] at hq
      exact h1 e he hq.1

theorem mem_getObjectFolders {d : FDir} {p : List Str} (h : p ∈ getObjectFolders d) :
    ∃ n sub q x, p = n :: q ∧ (n, sub) ∈ d.dirs ∧ n ≠ "extensions".toList ∧ p ∈ recurseObjects [n] sub ∧
      Reach sub q x ∧ ∃ m ∈ x.files, isDotName m = false := by
  induction d with
  | nil => simp [getObjectFolders] at h
  | file n rest ih => rw [getObjectFolders] at h; simpa [FDir.dirs] using ih h
  | dir n sub rest ih1 ih2 =>
    rw [getObjectFolders] at h
    rcases List.mem_append.1 h with h | h
    · split at h
      · simp at h
      · rename_i hn
        simp only [Bool.or_eq_true, decide_eq_true_eq, not_or] at hn
        obtain ⟨q, x, h1, h2, h3⟩ := mem_recurseObjects h
        exact ⟨n, sub, q, x, by simpa using h1, by simp [FDir.dirs], hn.2, h, h2, h3⟩
    · obtain ⟨m, s, q, x, h1, h2, h3⟩ := ih2 h
      exact ⟨m, s, q, x, h1, by simp [FDir.dirs, h2], h3⟩

theorem nodup_getObjectFolders {d : FDir} (h : DistinctDirs d) : (getObjectFolders d).Nodup := by
  induction d with
  | nil => simp [getObjectFolders]
  | file n rest ih => rw [getObjectFolders]; exact ih h
  | dir n sub rest ih1 ih2 =>
    obtain ⟨h1, h2, h3⟩ := h
    rw [getObjectFolders, List.nodup_append]
    refine ⟨?_, ih2 h3, ?_⟩
    · split
      · simp
      · exact nodup_recurseObjects h2 _
    · rintro a ha b hb rfl
      split at ha
      · simp at ha
      · obtain ⟨q, _, hq, _⟩ := mem_recurseObjects ha
        obtain ⟨m, s, r, x, hm, hms, _⟩ := mem_getObjectFolders hb
        rw [hq] at hm
        simp only [List.cons_append, List.nil_append, List.cons.injEq] at hm
        exact h1 _ hms hm.1.symm

/-- C58, all trees: every listed folder exists, contains a file, is not below `extensions`, and is listed once. -/
theorem C58_listed_once {root : FDir} (hn : GoodNames root) :
    (getObjectFolders root).Nodup ∧
    ∀ p ∈ getObjectFolders root, p ≠ [] ∧ p.head? ≠ some "extensions".toList ∧ ∃ x, Reach root p x ∧ x.files ≠ [] := by
  refine ⟨nodup_getObjectFolders hn.distinct, ?_⟩
  intro p hp
  obtain ⟨n, sub, q, x, rfl, h2, h3, _, h4, m, hm, _⟩ := mem_getObjectFolders hp
  refine ⟨by simp, by simpa using h3, x, .step h2 h4, ?_⟩
  intro h; rw [h] at hm; simp at hm

/-! ## Proper hierarchies -/

/-- an object folder as `ReadDir` lists it: a file comes first -/
def ObjDir (d : FDir) : Prop := IsObjectDir d ∧ ∃ n rest, d = .file n rest

/-- a part of the storage hierarchy: no files outside of objects -/
def Hierarchy : FDir → Prop
  | .nil => True
  | .file _ _ => False
  | .dir _ sub rest => (ObjDir sub ∨ Hierarchy sub) ∧ Hierarchy rest

/-- the storage root: files are allowed, `extensions` may contain anything -/
def RootHierarchy : FDir → Prop
  | .nil => True
  | .file _ rest => RootHierarchy rest
  | .dir n sub rest => (n = "extensions".toList ∨ ObjDir sub ∨ Hierarchy sub) ∧ RootHierarchy rest

theorem Hierarchy.no_files {d : FDir} (h : Hierarchy d) : d.files = [] := by
  induction d with
  | nil => rfl
  | file n rest _ => exact absurd h (by simp [Hierarchy])
  | dir n sub rest _ ih => exact ih h.2

theorem Hierarchy.not_object {d : FDir} (h : Hierarchy d) : ¬ IsObjectDir d := by
  rintro ⟨n, hn, _⟩; rw [h.no_files] at hn; simp at hn

theorem ObjDir.recurse {d : FDir} (h : ObjDir d) (hn : GoodNames d) (base : List Str) :
    recurseObjects base d = [base] := by
  obtain ⟨_, n, rest, rfl⟩ := h
  rw [recurseObjects, if_neg]
  have := (hn [] _ (.here _)).2 n (by simp [FDir.files])
  simp [this]

theorem recurse_complete {d : FDir} (hh : ObjDir d ∨ Hierarchy d) (hn : GoodNames d) (hnest : NoNesting d)
    {p : List Str} {x : FDir} (hr : Reach d p x) (hx : IsObjectDir x) (base : List Str) :
    base ++ p ∈ recurseObjects base d := by
  have key : ∀ d : FDir, (∀ n sub, (n, sub) ∈ d.dirs → GoodNames sub ∧ NoNesting sub) → Hierarchy d →
      ∀ (p : List Str) (x : FDir), Reach d p x → IsObjectDir x → ∀ base, base ++ p ∈ recurseObjects base d := by
    intro d
    induction d with
    | nil =>
      intro _ hh p x hr hx
      cases hr with
      | here => exact absurd hx hh.not_object
      | step hm _ => simp [FDir.dirs] at hm
    | file n rest _ => intro _ hh; exact absurd hh (by simp [Hierarchy])
    | dir n sub rest ih1 ih2 =>
      intro hsub hh p x hr hx base
      rw [recurseObjects]
      cases hr with
      | here => exact absurd hx hh.not_object
      | @step _ s _ m q hm t =>
        simp only [FDir.dirs, List.mem_cons, Prod.mk.injEq] at hm
        rcases hm with ⟨rfl, rfl⟩ | hm
        · refine List.mem_append.2 (.inl ?_)
          obtain ⟨g1, g2⟩ := hsub m s (by simp [FDir.dirs])
          rcases hh.1 with ho | hs
          · have : q = [] := g2 [] s q x (.here _) ho.1 t hx
            subst this
            rw [ho.recurse g1]; simp
          · have := ih1 (fun k y hy => ⟨g1.sub (.step hy (.here _)), g2.sub (.step hy (.here _))⟩) hs q x t hx
              (base ++ [m])
            simpa using this
        · exact List.mem_append.2 (.inr
            (ih2 (fun k y hy => hsub k y (by simp [FDir.dirs, hy])) hh.2 _ x (.step hm t) hx base))
  rcases hh with ho | hh
  · have : p = [] := hnest [] d p x (.here _) ho.1 hr hx
    subst this
    rw [ho.recurse hn]; simp
  · exact key d (fun n sub hm => ⟨hn.sub (.step hm (.here _)), hnest.sub (.step hm (.here _))⟩) hh p x hr hx base

theorem recurse_sound {d : FDir} (hh : ObjDir d ∨ Hierarchy d) (hn : GoodNames d) {base p : List Str}
    (h : p ∈ recurseObjects base d) : ∃ q x, p = base ++ q ∧ Reach d q x ∧ IsObjectDir x := by
  have key : ∀ d : FDir, (∀ n sub, (n, sub) ∈ d.dirs → GoodNames sub) → Hierarchy d → ∀ base p,
      p ∈ recurseObjects base d → ∃ q x, p = base ++ q ∧ q ≠ [] ∧ Reach d q x ∧ IsObjectDir x := by
    intro d
    induction d with
    | nil => intro _ _ base p h; simp [recurseObjects] at h
    | file n rest _ => intro _ hh; exact absurd hh (by simp [Hierarchy])
    | dir n sub rest ih1 ih2 =>
      intro hg hh base p h
      rw [recurseObjects] at h
      rcases List.mem_append.1 h with h | h
      · have g1 := hg n sub (by simp [FDir.dirs])
        rcases hh.1 with ho | hs
        · rw [ho.recurse g1, List.mem_singleton] at h
          exact ⟨[n], sub, h, by simp, .step (by simp [FDir.dirs]) (.here _), ho.1⟩
        · obtain ⟨q, x, h1, _, h2, h3⟩ := ih1 (fun k y hy => g1.sub (.step hy (.here _))) hs _ _ h
          exact ⟨n :: q, x, by rw [h1]; simp, by simp, .step (by simp [FDir.dirs]) h2, h3⟩
      · obtain ⟨q, x, h1, hq, h2, h3⟩ := ih2 (fun k y hy => hg k y (by simp [FDir.dirs, hy])) hh.2 _ _ h
        cases h2 with
        | here => exact absurd rfl hq
        | step hm t => exact ⟨_, x, h1, by simp, .step (by simp [FDir.dirs, hm]) t, h3⟩
  rcases hh with ho | hh
  · rw [ho.recurse hn, List.mem_singleton] at h
    exact ⟨[], d, by simp [h], .here _, ho.1⟩
  · obtain ⟨q, x, h1, _, h2, h3⟩ := key d (fun n sub hm => hn.sub (.step hm (.here _))) hh base p h
    exact ⟨q, x, h1, h2, h3⟩

theorem rootHierarchy_dir {d : FDir} (h : RootHierarchy d) {n : Str} {sub : FDir} (hm : (n, sub) ∈ d.dirs) :
    n = "extensions".toList ∨ ObjDir sub ∨ Hierarchy sub := by
  induction d with
  | nil => simp [FDir.dirs] at hm
  | file _ rest ih => exact ih h hm
  | dir m s rest _ ih =>
    simp only [FDir.dirs, List.mem_cons, Prod.mk.injEq] at hm
    rcases hm with ⟨rfl, rfl⟩ | hm
    · exact h.1
    · exact ih h.2 hm

theorem getObjectFolders_of_dir {d sub : FDir} {n : Str} {p : List Str} (hm : (n, sub) ∈ d.dirs)
    (h1 : isDotName n = false) (h2 : n ≠ "extensions".toList) (hp : p ∈ recurseObjects [n] sub) :
    p ∈ getObjectFolders d := by
  induction d with
  | nil => simp [FDir.dirs] at hm
  | file _ rest ih => exact ih hm
  | dir m s rest _ ih =>
    rw [getObjectFolders]
    simp only [FDir.dirs, List.mem_cons, Prod.mk.injEq] at hm
    rcases hm with ⟨rfl, rfl⟩ | hm
    · rw [h1]
      simp only [Bool.false_or, decide_eq_true_eq]
      rw [if_neg h2]
      exact List.mem_append.2 (.inl hp)
    · exact List.mem_append.2 (.inr (ih hm))

/-! ## C58 -/

/-- C58 in full: for every tree in which no object is nested in another one, the listing contains exactly the object
folders, each once. -/
def C58_full : Prop :=
  ∀ root : FDir, GoodNames root → NoNesting root →
    (getObjectFolders root).Nodup ∧ ∀ p, p ∈ getObjectFolders root ↔ IsObjectFolder root p

/-- C58 for storage hierarchies as the standard describes them: outside of objects only the root contains files, and
in objects `ReadDir` lists a file first (see `objDir_of_sorted`).  Missing: stray files. -/
theorem C58_exact_partial {root : FDir} (hn : GoodNames root) (hnest : NoNesting root) (hh : RootHierarchy root) :
    (getObjectFolders root).Nodup ∧ ∀ p, p ∈ getObjectFolders root ↔ IsObjectFolder root p := by
  refine ⟨nodup_getObjectFolders hn.distinct, fun p => ⟨?_, ?_⟩⟩
  · intro hp
    obtain ⟨n, sub, q, x, rfl, h2, h3, h4, _⟩ := mem_getObjectFolders hp
    have hsub := (rootHierarchy_dir hh h2).resolve_left h3
    obtain ⟨q', y, h5, h6, h7⟩ := recurse_sound hsub (hn.sub (.step h2 (.here _))) h4
    refine ⟨y, ?_, h7, by simp, by simpa using h3⟩
    rw [h5]
    exact .step h2 h6
  · rintro ⟨x, hr, hx, hne, hext⟩
    cases hr with
    | here => exact absurd rfl hne
    | @step _ sub _ n q hm t =>
      have h3 : n ≠ "extensions".toList := by simpa using hext
      have hsub := (rootHierarchy_dir hh hm).resolve_left h3
      have := recurse_complete hsub (hn.sub (.step hm (.here _))) (hnest.sub (.step hm (.here _))) t hx [n]
      refine getObjectFolders_of_dir hm ?_ h3 this
      exact (hn [] _ (.here _)).2 n (List.mem_append.2 (.inl (List.mem_map.2 ⟨_, hm, rfl⟩)))

/-- the entry names, in order -/
def FDir.names : FDir → List Str
  | .nil => []
  | .file n rest => n :: rest.names
  | .dir n _ rest => n :: rest.names

theorem FDir.file_mem_names {d : FDir} {n : Str} (h : n ∈ d.files) : n ∈ d.names := by
  induction d with
  | nil => simp [FDir.files] at h
  | file m rest ih =>
    rcases List.mem_cons.1 h with rfl | h
    · simp [FDir.names]
    · simp [FDir.names, ih h]
  | dir m s rest _ ih => simp [FDir.names, ih h]

/-- The entry condition of `C58_exact_partial`: if `ReadDir` sorts by name and no directory name is smaller than the
declaration's, a file comes first (versions, `extensions` and `logs` are all greater than `0=ocfl_object_…`). -/
theorem objDir_of_sorted {d : FDir} (hs : d.names.Pairwise (fun a b => strLt a b = true)) {n : Str} (hf : n ∈ d.files)
    (hp : hasPrefix n "0=ocfl_object_".toList = true) (hd : ∀ e ∈ d.dirs, strLt n e.1 = true) : ObjDir d := by
  refine ⟨⟨n, hf, hp⟩, ?_⟩
  cases d with
  | nil => simp [FDir.files] at hf
  | file m rest => exact ⟨m, rest, rfl⟩
  | dir m s rest =>
    exfalso
    have h1 := (List.pairwise_cons.1 hs).1 n (FDir.file_mem_names (d := rest) hf)
    have h2 := hd (m, s) (by simp [FDir.dirs])
    have : strLe n m = false := by simpa [strLt] using h1
    have h4 : strLe m n = false := by simpa [strLt] using h2
    rcases strLe_total n m with h5 | h5
    · rw [this] at h5; simp at h5
    · rw [h4] at h5; simp at h5

/-! ## Examples and violations -/

def exObj : FDir := .file "0=ocfl_object_1.1".toList (.file "inventory.json".toList (.dir "v1".toList .nil .nil))

/-- decidable check of a property of all reachable directories -/
def FDir.all (P : FDir → Bool) : FDir → Bool
  | .nil => true
  | .file _ rest => rest.all P
  | .dir _ sub rest => P sub && sub.all P && rest.all P

theorem FDir.all_reach {P : FDir → Bool} {d : FDir} (h : d.all P = true) {p : List Str} {x : FDir} (hp : p ≠ [])
    (hr : Reach d p x) : P x = true := by
  have key : ∀ d : FDir, d.all P = true → ∀ e ∈ d.dirs, P e.2 = true ∧ e.2.all P = true := by
    intro d
    induction d with
    | nil => simp [FDir.dirs]
    | file n rest ih => intro h; exact ih h
    | dir n sub rest _ ih =>
      intro h e he
      simp only [FDir.all, Bool.and_eq_true] at h
      rcases List.mem_cons.1 he with rfl | he
      · exact h.1
      · exact ih h.2 e he
  induction hr with
  | here => exact absurd rfl hp
  | @step _ sub _ n q hm t ih =>
    obtain ⟨h1, h2⟩ := key _ h _ hm
    cases t with
    | here => exact h1
    | step hm' t' => exact ih h2 (by simp)

def goodHere (d : FDir) : Bool :=
  decide ((d.dirs.map (·.1)) ++ d.files).Nodup && ((d.dirs.map (·.1)) ++ d.files).all (fun n => !isDotName n)

theorem goodNames_of_check {d : FDir} (h1 : goodHere d = true) (h2 : d.all goodHere = true) : GoodNames d := by
  intro p x hr
  have : goodHere x = true := by
    cases hr with
    | here => exact h1
    | step hm t => exact FDir.all_reach h2 (by simp) (.step hm t)
  unfold goodHere at this
  simp only [Bool.and_eq_true, decide_eq_true_eq, List.all_eq_true, Bool.not_eq_true'] at this
  exact this

def objHere (d : FDir) : Bool := d.files.any (fun n => hasPrefix n "0=ocfl_object_".toList)

theorem objHere_iff {d : FDir} : objHere d = true ↔ IsObjectDir d := by
  unfold objHere IsObjectDir
  rw [List.any_eq_true]

def nestHere (d : FDir) : Bool := !objHere d || d.all (fun x => !objHere x)

theorem noNesting_of_check {d : FDir} (h1 : nestHere d = true) (h2 : d.all nestHere = true) : NoNesting d := by
  intro p x q y hr hx hy hyo
  have hn : nestHere x = true := by
    cases hr with
    | here => exact h1
    | step hm t => exact FDir.all_reach h2 (by simp) (.step hm t)
  unfold nestHere at hn
  rw [objHere_iff.2 hx] at hn
  simp only [Bool.not_true, Bool.false_or] at hn
  by_contra hq
  have := FDir.all_reach hn hq hy
  rw [objHere_iff.2 hyo] at this
  simp at this

def exRoot : FDir :=
  .file "0=ocfl_1.1".toList (.dir "ab".toList (.dir "cd".toList exObj (.dir "ef".toList exObj .nil))
    (.dir "extensions".toList (.dir "0004".toList (.file "config.json".toList .nil) .nil) .nil))

example : GoodNames exRoot ∧ NoNesting exRoot ∧ RootHierarchy exRoot ∧
    getObjectFolders exRoot = [["ab".toList, "cd".toList], ["ab".toList, "ef".toList]] := by
  refine ⟨goodNames_of_check (by decide) (by decide), noNesting_of_check (by decide) (by decide), ?_, by decide⟩
  have ho : ObjDir exObj := ⟨objHere_iff.1 (by decide), _, _, rfl⟩
  exact ⟨.inr (.inr ⟨.inl ho, .inl ho, trivial⟩), .inl rfl, trivial⟩

/-- a stray file in a folder of the hierarchy -/
def strayRoot : FDir :=
  .dir "ab".toList (.file ".DS_Store".toList (.dir "cd".toList exObj .nil)) .nil

/-- C58 is violated: a stray file in the hierarchy hides the objects below; the folder itself is listed instead. -/
theorem C58_full_fails : ¬ C58_full := by
  intro h
  have := (h strayRoot (goodNames_of_check (by decide) (by decide)) (noNesting_of_check (by decide) (by decide))).2
    ["ab".toList, "cd".toList]
  have hobj : IsObjectFolder strayRoot ["ab".toList, "cd".toList] :=
    ⟨exObj, .step (List.mem_cons_self ..) (.step (List.mem_cons_self ..) (.here _)), objHere_iff.1 (by decide), by decide, by decide⟩
  exact absurd (this.2 hobj) (by decide)

/-- an object with a folder sorted in front of its declaration -/
def innerRoot : FDir :=
  .dir "obj".toList (.dir "#recycle".toList (.file "x".toList .nil) exObj) .nil

/-- C58 is violated: a folder inside an object is listed. -/
theorem C58_full_fails_inside : ¬ C58_full := by
  intro h
  have := (h innerRoot (goodNames_of_check (by decide) (by decide)) (noNesting_of_check (by decide) (by decide))).2
    ["obj".toList, "#recycle".toList]
  obtain ⟨x, hr, hx, _, _⟩ := this.1 (by decide)
  have hxe : x = .file "x".toList .nil := by
    obtain ⟨s, hs, hr⟩ := reach_cons.1 hr
    have : s = .dir "#recycle".toList (.file "x".toList .nil) exObj := by
      simp only [innerRoot, FDir.dirs, List.mem_singleton, Prod.mk.injEq] at hs
      exact hs.2
    subst this
    obtain ⟨t, ht, hr⟩ := reach_cons.1 hr
    simp only [FDir.dirs, exObj, List.mem_cons, Prod.mk.injEq, List.not_mem_nil, or_false] at ht
    rcases ht with ⟨_, rfl⟩ | ⟨h2, _⟩
    · exact reach_nil hr
    · exact absurd h2 (by decide)
  rw [hxe] at hx
  exact absurd (objHere_iff.2 hx) (by decide)

end Gocfl
