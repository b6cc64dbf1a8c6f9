import Verif.Model.Session

/-!
# Follow-up versions (`EndUpdate` with extensions that ask for a new version)

`Model/Session.lean` runs a given list of follow-up versions; here the extensions decide.  An extension is a state
machine over a common state `σ` (all that extensions remember), free to call methods of the object.
-/

namespace Gocfl

/-- A hook: the new state of the extensions, the calls made on the object and the error returned. -/
abbrev Hook (σ : Type) := σ → Obj → σ × List Call × Option GoErr

/-- pkg/ocfl/extension.go:107-111 `ExtensionNewVersion` -/
structure NVExt (σ : Type) where
  need : σ → Obj → Res Bool
  doNew : Hook σ

/-- What the manager calls during an update: `UpdateObjectBefore`, `UpdateObjectAfter` (of all extensions together)
and the list `newVersion`. -/
structure Hooks (σ : Type) where
  before : Hook σ
  after : Hook σ
  exts : List (NVExt σ)

/-- A hook runs: its calls in order up to the first one that fails.  Simplification: the calls are chosen from the
state at the start of the hook (which determines the results of the calls). -/
def runHook {σ : Type} (w : World) (h : Hook σ) (s : σ) (o : Obj) : σ × Out :=
  ((h s o).1, (runCalls w o (h s o).2.1).andThen fun o' => ⟨o', (h s o).2.2⟩)

/-- pkg/extension/NNNN-gocfl-extension-manager.go:548-559 `NeedNewVersion` -/
def managerNeed {σ : Type} : List (NVExt σ) → σ → Obj → Res Bool
  | [], _, _ => .ok false
  | e :: es, s, o =>
    match e.need s o with
    | .error x => .error x
    | .ok true => .ok true
    | .ok false => managerNeed es s o

/-- pkg/extension/NNNN-gocfl-extension-manager.go:561-568 `DoNewVersion`: every extension, not only those which asked. -/
def managerDo {σ : Type} (w : World) : List (NVExt σ) → σ → Obj → σ × Out
  | [], s, o => (s, ok o)
  | e :: es, s, o =>
    match runHook w e.doNew s o with
    | (s', ⟨o', none⟩) => managerDo w es s' o'
    | (s', ⟨o', some x⟩) => (s', ⟨o', some x⟩)

/-- pkg/ocfl/objectbase.go:547-565 `StartUpdate` with hooks -/
def startHooks {σ : Type} (w : World) (hk : Hooks σ) (s : σ) (o : Obj) (v : VInfo) (echo : Bool) : σ × Out :=
  match withInv { o with echo := echo } (newVersion o.inv v.msg v.userName v.userAddress v.now) with
  | ⟨o', some x⟩ => (s, ⟨o', some x⟩)
  | ⟨o', none⟩ => runHook w hk.before s o'

/-- pkg/ocfl/objectbase.go:579-592: mirror deletion, `UpdateObjectAfter`, cleaning and storing the version's
inventory -/
def closeVersion {σ : Type} (w : World) (hk : Hooks σ) (s : σ) (o : Obj) : σ × Out :=
  match (if o.echo then objEcho w o else ok o) with
  | ⟨o1, some x⟩ => (s, ⟨o1, some x⟩)
  | ⟨o1, none⟩ =>
    match runHook w hk.after s o1 with
    | (s2, ⟨o2, some x⟩) => (s2, ⟨o2, some x⟩)
    | (s2, ⟨o2, none⟩) => (s2, (withInv o2 (clean o2.inv)).andThen fun o => storeInventory w o true false)

/-- What one activation of `EndUpdate` comes to: it returns, or calls `EndUpdate` again. -/
inductive EndStep (σ : Type) where
  | ret (s : σ) (out : Out)
  | again (s : σ) (o : Obj)

/-- pkg/ocfl/objectbase.go:567-613 `EndUpdate`, one activation; `v`: message, user and time of the follow-up version -/
def endStep {σ : Type} (w : World) (hk : Hooks σ) (v : VInfo) (s : σ) (o : Obj) : EndStep σ :=
  if o.inv.writeable = false then .ret s (ok o)
  else if o.inv.modified = false then .ret s (ok o)
  else
    match closeVersion w hk s o with
    | (s1, ⟨o1, some x⟩) => .ret s1 ⟨o1, some x⟩
    | (s1, ⟨o1, none⟩) =>
      match managerNeed hk.exts s1 o1 with
      | .error x => .ret s1 ⟨o1, some x⟩
      | .ok false => .ret s1 (ok o1)
      | .ok true =>
        match startHooks w hk s1 o1 v false with
        | (s2, ⟨o2, some x⟩) => .ret s2 ⟨o2, some x⟩
        | (s2, ⟨o2, none⟩) =>
          match managerDo w hk.exts s2 o2 with
          | (s3, ⟨o3, some x⟩) => .ret s3 ⟨o3, some x⟩
          | (s3, ⟨o3, none⟩) => .again s3 o3

/-- `EndUpdate` returns after `k` follow-up versions (pkg/ocfl/objectbase.go:609: the recursive call). -/
inductive EndsIn {σ : Type} (w : World) (hk : Hooks σ) (v : VInfo) : Nat → σ → Obj → σ → Out → Prop
  | ret {s : σ} {o : Obj} {s' : σ} {out : Out} : endStep w hk v s o = .ret s' out → EndsIn w hk v 0 s o s' out
  | again {k : Nat} {s : σ} {o : Obj} {s1 : σ} {o1 : Obj} {s' : σ} {out : Out} :
      endStep w hk v s o = .again s1 o1 → EndsIn w hk v k s1 o1 s' out → EndsIn w hk v (k + 1) s o s' out

/-! ### The extensions of the repository -/

/-- The extensions that implement `ExtensionNewVersion`: pkg/extension/NNNN-filesystem.go:211-217 (never asks, does
nothing) and pkg/extension/NNNN-migration.go:204-400. -/
inductive NVKind where
  | filesystem
  | migration
  deriving DecidableEq, Repr

/-- pkg/extension/NNNN-migration.go:87-100 `Migration`: the fields that decide about a follow-up version -/
structure MigSt where
  files : List Str
  done : Bool

/-- The extensions of an object with everything the termination does not depend on left open: the other state `τ`, the
other hooks, which files `UpdateObjectAfter` of the `i`-th extension finds to migrate (`collect`,
pkg/extension/NNNN-migration.go:153-202), and what `DoNewVersion` of the `i`-th extension does with them (`migrate`,
pkg/extension/NNNN-migration.go:215-399), including failing. -/
structure RepoExts (τ : Type) where
  kinds : List NVKind
  before : Hook τ
  after : Hook τ
  collect : Nat → τ → Obj → List Str → List Str
  migrate : Nat → τ → List Str → Obj → τ × List Call × Option GoErr

def repoExt {τ : Type} (r : RepoExts τ) (i : Nat) : NVKind → NVExt (τ × (Nat → MigSt))
  | .filesystem => ⟨fun _ _ => .ok false, fun s _ => (s, [], none)⟩
  | .migration =>
    ⟨-- pkg/extension/NNNN-migration.go:204-206
     fun s _ => .ok (!(s.2 i).files.isEmpty && !(s.2 i).done),
     -- pkg/extension/NNNN-migration.go:209-213: the deferred function runs whatever happens
     fun s o =>
       let m := r.migrate i s.1 (s.2 i).files o
       ((m.1, fun j => if j = i then ⟨[], true⟩ else s.2 j), m.2.1, m.2.2)⟩

def repoExtsFrom {τ : Type} (r : RepoExts τ) : Nat → List NVKind → List (NVExt (τ × (Nat → MigSt)))
  | _, [] => []
  | i, k :: ks => repoExt r i k :: repoExtsFrom r (i + 1) ks

def RepoExts.hooks {τ : Type} (r : RepoExts τ) : Hooks (τ × (Nat → MigSt)) where
  before s o := let b := r.before s.1 o; ((b.1, s.2), b.2.1, b.2.2)
  after s o :=
    let a := r.after s.1 o
    ((a.1, fun i => ⟨r.collect i s.1 o (s.2 i).files, (s.2 i).done⟩), a.2.1, a.2.2)
  exts := repoExtsFrom r 0 r.kinds

end Gocfl
