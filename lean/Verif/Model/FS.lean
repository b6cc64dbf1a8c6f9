import Verif.Go.Basic

/-!
# File system: files with their bytes, traces of writes, crashes

`github.com/je4/filesystem` (package `writefs`) is not part of the repository; the model uses the interface
only: `Create` truncates or creates a file, `Write` appends to the open file.
-/

namespace Gocfl

abbrev Bytes := List UInt8

/-- The files of an object's directory (clean relative path to content).  Simplification: directories exist
implicitly. -/
abbrev FS := AMap Str Bytes

/-- One elementary change of the file system. -/
inductive FsOp where
  | create (path : Str)
  | append (path : Str) (data : Bytes)
  deriving DecidableEq, Repr

def FsOp.path : FsOp → Str
  | .create p => p
  | .append p _ => p

def FsOp.apply (fs : FS) : FsOp → FS
  | .create p => mset fs p []
  | .append p b => mset fs p ((mget fs p).getD [] ++ b)

/-- The file system after a trace of changes. -/
def applyOps (fs : FS) (t : List FsOp) : FS := t.foldl FsOp.apply fs

/-- `Create`, `Write` of all the data, `Close`. -/
def writeFile (p : Str) (b : Bytes) : List FsOp := [.create p, .append p b]

/-- `t'` is what a crash may leave of the trace `t`: some of its first changes, the last write possibly
incomplete. -/
inductive CrashPrefix : List FsOp → List FsOp → Prop
  | stop (t : List FsOp) : CrashPrefix [] t
  | torn (p : Str) (b b' : Bytes) (t : List FsOp) : CrashPrefix [.append p b] (.append p (b ++ b') :: t)
  | next (op : FsOp) {t' t : List FsOp} : CrashPrefix t' t → CrashPrefix (op :: t') (op :: t)

theorem applyOps_append (fs : FS) (t u : List FsOp) : applyOps fs (t ++ u) = applyOps (applyOps fs t) u := by
  simp [applyOps]

theorem applyOps_nil (fs : FS) : applyOps fs [] = fs := rfl

theorem applyOps_cons (fs : FS) (op : FsOp) (t : List FsOp) :
    applyOps fs (op :: t) = applyOps (op.apply fs) t := rfl

theorem mget_apply_ne {fs : FS} {op : FsOp} {p : Str} (h : op.path ≠ p) : mget (op.apply fs) p = mget fs p := by
  cases op <;> exact mget_mset_ne _ h _

/-- A file no change of the trace names stays as it is. -/
theorem mget_applyOps_ne {fs : FS} {t : List FsOp} {p : Str} (h : ∀ op ∈ t, op.path ≠ p) :
    mget (applyOps fs t) p = mget fs p := by
  induction t generalizing fs with
  | nil => rfl
  | cons op t ih =>
    rw [applyOps_cons, ih (fun o ho => h o (by simp [ho])), mget_apply_ne (h op (by simp))]

theorem mget_writeFile (fs : FS) (p : Str) (b : Bytes) : mget (applyOps fs (writeFile p b)) p = some b := by
  simp [writeFile, applyOps, FsOp.apply]

theorem mget_writeFile_ne (fs : FS) {p q : Str} (b : Bytes) (h : p ≠ q) :
    mget (applyOps fs (writeFile p b)) q = mget fs q := by
  apply mget_applyOps_ne
  intro op hop
  simp only [writeFile, List.mem_cons, List.not_mem_nil, or_false] at hop
  rcases hop with rfl | rfl <;> exact h

theorem CrashPrefix.refl (t : List FsOp) : CrashPrefix t t := by
  induction t with
  | nil => exact .stop _
  | cons op t ih => exact .next op ih

theorem CrashPrefix.take (t : List FsOp) (k : Nat) : CrashPrefix (t.take k) t := by
  induction t generalizing k with
  | nil => rw [List.take_nil]; exact .stop _
  | cons op t ih =>
    cases k with
    | zero => exact .stop _
    | succ k => exact .next op (ih k)

theorem CrashPrefix.path {t' t : List FsOp} (h : CrashPrefix t' t) {op : FsOp} (hop : op ∈ t') :
    ∃ op' ∈ t, op'.path = op.path := by
  induction h with
  | stop t => simp at hop
  | torn p b b' t =>
    simp only [List.mem_cons, List.not_mem_nil, or_false] at hop
    subst hop
    exact ⟨_, List.mem_cons_self, rfl⟩
  | next o _ ih =>
    rcases List.mem_cons.1 hop with rfl | hop
    · exact ⟨op, List.mem_cons_self, rfl⟩
    · obtain ⟨o', h1, h2⟩ := ih hop
      exact ⟨o', List.mem_cons_of_mem _ h1, h2⟩

/-- A crash of `t ++ u` happened during `t` or after it. -/
theorem CrashPrefix.append {t' t u : List FsOp} (h : CrashPrefix t' (t ++ u)) :
    CrashPrefix t' t ∨ ∃ u', CrashPrefix u' u ∧ t' = t ++ u' := by
  induction t generalizing t' with
  | nil => exact Or.inr ⟨t', h, rfl⟩
  | cons op t ih =>
    cases h with
    | stop => exact Or.inl (.stop _)
    | torn p b b' => exact Or.inl (.torn p b b' t)
    | next _ h =>
      rcases ih h with h1 | ⟨u', h1, rfl⟩
      · exact Or.inl (.next _ h1)
      · exact Or.inr ⟨u', h1, rfl⟩

theorem CrashPrefix.append_left {u' u : List FsOp} (h : CrashPrefix u' u) (t : List FsOp) :
    CrashPrefix (t ++ u') (t ++ u) := by
  induction t with
  | nil => exact h
  | cons op t ih => exact .next op ih

/-- The crash points of writing one file: nothing done, the file empty or partly written, the file complete. -/
theorem CrashPrefix.writeFile {t' : List FsOp} {p : Str} {b : Bytes} (h : CrashPrefix t' (writeFile p b)) :
    t' = [] ∨ t' = [.create p] ∨ (∃ b1 b2, b = b1 ++ b2 ∧ t' = [.create p, .append p b1]) := by
  cases h with
  | stop => exact Or.inl rfl
  | next _ h =>
    cases h with
    | stop => exact Or.inr (Or.inl rfl)
    | torn _ b1 b2 => exact Or.inr (Or.inr ⟨b1, b2, rfl, rfl⟩)
    | next _ h =>
      cases h
      exact Or.inr (Or.inr ⟨b, [], by simp, rfl⟩)

end Gocfl
