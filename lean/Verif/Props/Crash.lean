import Verif.Model.Load
import Verif.Model.SessionLemmas
import Verif.Props.Paths
import Verif.Props.Determinism

/-!
# Crashes and stored inventories (C21–C24)
-/

namespace Gocfl

/-! ## Where a session writes -/

/-- A name that, followed component by component, never climbs above its start directory and does not end
at it. -/
def InsideName (i : Str) : Prop := ∃ k, walk 0 (splitOn '/' i) = some (k + 1)

/-- the names (with area) whose content paths a session builds -/
def callsUses (cs : List Call) : List (Str × Str) := cs.flatMap Call.uses

def Session.uses (s : Session) : List (Str × Str) :=
  callsUses s.before ++ callsUses s.body ++ callsUses s.after ++
    s.rounds.flatMap (fun r => callsUses r.before ++ callsUses r.body ++ callsUses r.after)

/-- The path mapping sends every name used in the session to a content path inside the content directory. -/
def SafeNames (w : World) (s : Session) : Prop :=
  ∀ x ∈ s.uses, ∀ i, w.manifestPath x.1 x.2 = .ok i → InsideName i

theorem usesIn_of {U : Str → Str → Prop} {cs : List Call} (h : ∀ x ∈ callsUses cs, U x.1 x.2) : UsesIn U cs :=
  fun c hc x hx => h x (List.mem_flatMap.2 ⟨c, hc, hx⟩)

theorem Session.usesIn (s : Session) : s.UsesIn (fun p a => (p, a) ∈ s.uses) := by
  have hb : ∀ x, x ∈ callsUses s.before ∨ x ∈ callsUses s.body ∨ x ∈ callsUses s.after ∨
      (∃ r ∈ s.rounds, x ∈ callsUses r.before ∨ x ∈ callsUses r.body ∨ x ∈ callsUses r.after) → x ∈ s.uses := by
    intro x hx
    unfold Session.uses
    simp only [List.mem_append, List.mem_flatMap]
    rcases hx with h | h | h | ⟨r, hr, h⟩
    · exact Or.inl (Or.inl (Or.inl h))
    · exact Or.inl (Or.inl (Or.inr h))
    · exact Or.inl (Or.inr h)
    · refine Or.inr ⟨r, hr, ?_⟩
      tauto
  exact {
    before := usesIn_of (fun x hx => hb x (Or.inl hx))
    body := usesIn_of (fun x hx => hb x (Or.inr (Or.inl hx)))
    after := usesIn_of (fun x hx => hb x (Or.inr (Or.inr (Or.inl hx))))
    rounds := fun r hr =>
      ⟨usesIn_of (fun x hx => hb x (Or.inr (Or.inr (Or.inr ⟨r, hr, Or.inl hx⟩)))),
       usesIn_of (fun x hx => hb x (Or.inr (Or.inr (Or.inr ⟨r, hr, Or.inr (Or.inl hx)⟩)))),
       usesIn_of (fun x hx => hb x (Or.inr (Or.inr (Or.inr ⟨r, hr, Or.inr (Or.inr hx)⟩))))⟩ }

theorem verName_noSlash (p : Int) (n : Nat) : '/' ∉ verName p (n : Int) := by
  obtain ⟨k, hk⟩ := verName_shape p n
  rw [hk]
  have := all_isDigit_zeros_append k n
  rw [List.all_eq_true] at this
  intro hm
  rcases List.mem_cons.1 hm with h | h
  · exact absurd h (by decide)
  · exact absurd (this _ h) (by decide)

theorem verName_valid (p : Int) (n : Nat) : ValidComp (verName p (n : Int)) := by
  refine ⟨?_, ?_, ?_, verName_noSlash p n⟩ <;>
  · obtain ⟨k, hk⟩ := verName_shape p n
    rw [hk]; simp

/-- first component of a path -/
def topOf (p : Str) : Str := (splitOn '/' p).headD []

theorem topOf_append {a : Str} (ha : '/' ∉ a) (b : Str) : topOf (a ++ '/' :: b) = a := by
  unfold topOf
  rw [splitOn_append, splitOn_noSep ha]; rfl

theorem topOf_joinWith {a : Str} (ha : '/' ∉ a) {cs : List Str} (hc : cs ≠ []) :
    topOf (joinWith '/' (a :: cs)) = a := by
  rw [joinWith_cons hc]; exact topOf_append ha _

/-- With safe names, everything a session writes before `Close` lies in the directory of a new version or in
`extensions`. -/
theorem newPath_top {w : World} {U : Str → Str → Prop} {inv : Inv} {lo : Nat} (hc : ValidComp inv.contentDir)
    (hs : ∀ p a i, U p a → w.manifestPath p a = .ok i → InsideName i) {p : Str} (h : NewPath w U inv lo p) :
    (∃ k : Nat, lo ≤ k ∧ topOf p = verName inv.paddingLength k) ∨ topOf p = "extensions".toList := by
  rcases h with ⟨k, hk, h⟩ | ⟨n, rfl⟩
  · refine Or.inl ⟨k, hk, ?_⟩
    rcases h with ⟨q, a, i, hu, hi, rfl⟩ | rfl | rfl
    · obtain ⟨j, hj⟩ := hs q a i hu hi
      obtain ⟨cs, h1, h2, h3⟩ := C13_content_path_inside_partial
        (inv := { inv with head := verName inv.paddingLength k }) (verName_valid _ _) hc hj
      rw [h3]
      exact topOf_joinWith (verName_noSlash _ _) (by simp)
    · exact topOf_append (verName_noSlash _ _) "inventory.json".toList
    · exact topOf_append (verName_noSlash _ _) ("inventory.json.".toList ++ inv.digestAlg)
  · exact Or.inr (topOf_append (a := "extensions".toList) (by decide) n)

theorem topOf_root : topOf rootInvPath = rootInvPath := by decide

theorem topOf_head {p c : Str} {x : Char} (hx : p.head? = some x) (hne : x ≠ '/') (hc : topOf p = c) :
    c.head? = some x := by
  cases p with
  | nil => cases hx
  | cons y p =>
    cases hx
    unfold topOf at hc
    rw [splitOn, if_neg hne] at hc
    subst hc
    cases splitOn '/' p <;> rfl

theorem verName_head (p : Int) (n : Nat) : (verName p (n : Int)).head? = some 'v' := by
  obtain ⟨k, hk⟩ := verName_shape p n
  rw [hk]; rfl

/-- A file of the object that a session must not touch before `Close`: the root inventory, a sidecar of it, or a
file of one of the versions `1..n`. -/
def OldFile (inv : Inv) (n : Nat) (q : Str) : Prop :=
  q = rootInvPath ∨ (∃ alg, q = rootSidecarPath alg) ∨
    ∃ k : Nat, 1 ≤ k ∧ k ≤ n ∧ ∃ rest, q = verName inv.paddingLength k ++ '/' :: rest

theorem newPath_ne_old {w : World} {U : Str → Str → Prop} {inv : Inv} {n : Nat} (hc : ValidComp inv.contentDir)
    (hs : ∀ p a i, U p a → w.manifestPath p a = .ok i → InsideName i) {p q : Str} (h : NewPath w U inv (n + 1) p)
    (hq : OldFile inv n q) : p ≠ q := by
  rintro rfl
  rcases hq with h1 | ⟨alg, h1⟩ | ⟨k, _, hk, rest, h1⟩
  · rcases newPath_top hc hs h with ⟨k, _, h2⟩ | h2
    · have := topOf_head (p := p) (x := 'i') (by rw [h1]; rfl) (by decide) h2
      rw [verName_head] at this; exact absurd this (by decide)
    · have := topOf_head (p := p) (x := 'i') (by rw [h1]; rfl) (by decide) h2
      exact absurd this (by decide)
  · rcases newPath_top hc hs h with ⟨k, _, h2⟩ | h2
    · have := topOf_head (p := p) (x := 'i') (by rw [h1]; rfl) (by decide) h2
      rw [verName_head] at this; exact absurd this (by decide)
    · have := topOf_head (p := p) (x := 'i') (by rw [h1]; rfl) (by decide) h2
      exact absurd this (by decide)
  · have h3 : topOf p = verName inv.paddingLength k := by rw [h1]; exact topOf_append (verName_noSlash _ _) _
    rcases newPath_top hc hs h with ⟨k', hk', h2⟩ | h2
    · rw [h3] at h2
      have := verName_inj h2
      omega
    · rw [h3] at h2
      have := congrArg List.head? h2
      rw [verName_head] at this; exact absurd this (by decide)

/-! ## C21 -/

/-- **C21, full statement** (false): whatever is added, if a crash left `t'` of the writes of a session and
nothing was written to the root inventory, all old files are as before. -/
def C21_full : Prop :=
  ∀ (w : World) (inv : Inv) (n : Nat) (s : Session) (fs : FS) (t' : List FsOp), WF inv n →
    ValidComp inv.contentDir → CrashPrefix t' (session w inv s).obj.trace → (∀ op ∈ t', op.path ≠ rootInvPath) →
    ∀ q, OldFile inv n q → mget (applyOps fs t') q = mget fs q

theorem sessionOpen_trace {w : World} {inv : Inv} {n : Nat} (h : WF inv n) (s : Session) :
    ∀ op ∈ (sessionOpen w inv s).obj.trace, NewPath w (fun p a => (p, a) ∈ s.uses) inv (n + 1) op.path := by
  rcases sessionOpen_good (w := w) h s.usesIn with hg | ⟨ht, _⟩
  · exact hg.trace
  · rw [ht]; simp

/-- the two files `Close` writes at the object root -/
def rootWrites (w : World) (h : Bytes → Str) (inv : Inv) : List FsOp :=
  writeFile rootInvPath (w.enc inv) ++ writeFile (rootSidecarPath inv.digestAlg) (sidecarText (h (w.enc inv)))

def extWrites (exts : List (Str × Bytes)) : List FsOp := exts.flatMap (fun e => writeFile (extPath e.1) e.2)

theorem not_false_iff {b : Bool} (h : ¬ b = false) : b = true := by cases b <;> simp_all

/-- `Close` either does nothing, or fails before writing, or writes the root inventory, its sidecar and the
extensions. -/
theorem closeObj_cases (w : World) (o : Obj) (exts : List (Str × Bytes)) :
    (closeObj w o exts = ok o ∧ (o.inv.writeable = false ∨ o.inv.modified = false)) ∨
    (o.inv.writeable = true ∧ o.inv.modified = true ∧ w.hash o.inv.digestAlg = none ∧
      (closeObj w o exts).obj = o ∧ (closeObj w o exts).err ≠ none) ∨
    (o.inv.writeable = true ∧ o.inv.modified = true ∧ ∃ h, w.hash o.inv.digestAlg = some h ∧
      closeObj w o exts = ok (o.write (rootWrites w h o.inv ++ extWrites exts))) := by
  unfold closeObj
  by_cases hw : o.inv.writeable = false
  · rw [if_pos hw]; exact Or.inl ⟨rfl, Or.inl hw⟩
  · rw [if_neg hw]
    by_cases hm : o.inv.modified = false
    · rw [if_pos hm]; exact Or.inl ⟨rfl, Or.inr hm⟩
    · rw [if_neg hm]
      right
      have hm := not_false_iff hm
      rw [clean_modified hm]
      simp only [withInv, Out.andThen]
      unfold storeInventory
      rw [if_neg hw]
      cases hh : w.hash o.inv.digestAlg with
      | none => left; exact ⟨not_false_iff hw, hm, rfl, rfl, by simp [fail]⟩
      | some h =>
        right
        refine ⟨not_false_iff hw, hm, h, rfl, ?_⟩
        simp [ok, Obj.write, rootWrites, extWrites]

/-- **C21** for sessions whose names stay inside the content directory: at every crash point before the root
inventory is touched, the root inventory, its sidecars and every file of every earlier version are byte-identical
to before.  Missing: names with `..` (see `C21_full_fails`). -/
theorem C21_crash_before_root_harmless_partial {w : World} {inv : Inv} {n : Nat} {s : Session} {fs : FS}
    {t' : List FsOp} (h : WF inv n) (hc : ValidComp inv.contentDir) (hs : SafeNames w s)
    (ht : CrashPrefix t' (session w inv s).obj.trace) (hroot : ∀ op ∈ t', op.path ≠ rootInvPath) {q : Str}
    (hq : OldFile inv n q) : mget (applyOps fs t') q = mget fs q := by
  have hs' : ∀ p a i, (p, a) ∈ s.uses → w.manifestPath p a = .ok i → InsideName i :=
    fun p a i hu hi => hs (p, a) hu i hi
  have key : CrashPrefix t' (sessionOpen w inv s).obj.trace → mget (applyOps fs t') q = mget fs q := by
    intro ht
    apply mget_applyOps_ne
    intro op hop
    obtain ⟨op', h1, h2⟩ := ht.path hop
    rw [← h2]
    exact newPath_ne_old hc hs' (sessionOpen_trace h s op' h1) hq
  unfold session at ht
  cases he : (sessionOpen w inv s).err with
  | some e => rw [andThen_some he] at ht; exact key ht
  | none =>
    rw [andThen_none he] at ht
    rcases closeObj_cases w (sessionOpen w inv s).obj s.exts with ⟨h1, _⟩ | ⟨_, _, _, h1, _⟩ | ⟨_, _, h, _, h1⟩
    · rw [h1] at ht; exact key ht
    · rw [h1] at ht; exact key ht
    · rw [h1] at ht
      rcases CrashPrefix.append ht with ht | ⟨u, hu, rfl⟩
      · exact key ht
      · unfold rootWrites writeFile at hu
        cases hu with
        | stop => exact key (by rw [List.append_nil]; exact CrashPrefix.refl _)
        | next _ hu => exact absurd rfl (hroot (.create rootInvPath) (by simp))

/-- a world without path-changing extensions -/
def exWorld : World where
  enc _ := [1]
  dec _ := none
  hash a := if a = "sha512".toList then some (fun b => 'a' :: List.replicate b.length '0') else none
  statePath p _ := .ok p
  manifestPath p _ := .ok p
  time t := t

/-- a session adding one file with content `7` under `name` -/
def exSession (name : Str) : Session where
  info := ⟨[], [], [], []⟩
  echo := false
  before := []
  body := [.add name [] [7] true]
  after := []
  rounds := []
  exts := []

theorem exInv_wf2 : WF exInv 2 := ⟨exInv_gapFree, exInv_mapKeysOk⟩

theorem exInv_contentDir : ValidComp exInv.contentDir := by
  have : ∀ c ∈ [exInv.contentDir], c ≠ [] ∧ c ≠ ".".toList ∧ c ≠ "..".toList ∧ '/' ∉ c := by decide
  exact this _ (by simp)

/-- an ordinary session writes its content, the inventory and sidecar of the version, then those of the root -/
example : (session exWorld exInv (exSession "c/d".toList)).obj.trace.map FsOp.path =
    ["v3/content/c/d", "v3/content/c/d", "v3/inventory.json", "v3/inventory.json", "v3/inventory.json.sha512",
     "v3/inventory.json.sha512", "inventory.json", "inventory.json", "inventory.json.sha512",
     "inventory.json.sha512"].map String.toList := by decide

/-- and meets the hypotheses of the theorem at every crash point before the root inventory -/
example : SafeNames exWorld (exSession "c/d".toList) := by
  intro x hx i hi
  have : x = ("c/d".toList, []) := by simpa [Session.uses, exSession, callsUses, Call.uses] using hx
  subst this
  cases hi
  exact ⟨1, by decide⟩

/-- A name with `..` overwrites a file of an earlier version. -/
theorem C21_full_fails : ¬ C21_full := by
  intro hf
  have h1 : (session exWorld exInv (exSession "../../v1/content/a".toList)).obj.trace.head? =
      some (.create "v1/content/a".toList) := by decide
  obtain ⟨rest, hr⟩ : ∃ rest, (session exWorld exInv (exSession "../../v1/content/a".toList)).obj.trace =
      .create "v1/content/a".toList :: rest := by
    cases h : (session exWorld exInv (exSession "../../v1/content/a".toList)).obj.trace with
    | nil => rw [h] at h1; cases h1
    | cons x l => rw [h] at h1; cases h1; exact ⟨l, rfl⟩
  have h2 := hf exWorld exInv 2 (exSession "../../v1/content/a".toList) [("v1/content/a".toList, [1])]
    [.create "v1/content/a".toList] exInv_wf2 exInv_contentDir
    (by rw [hr]; exact CrashPrefix.next _ (CrashPrefix.stop _)) (by decide) "v1/content/a".toList
    (Or.inr (Or.inr ⟨1, by omega, by omega, "content/a".toList, by decide⟩))
  exact absurd h2 (by decide)

end Gocfl
