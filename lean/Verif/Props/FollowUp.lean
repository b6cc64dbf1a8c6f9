import Verif.Model.FollowUp
import Verif.Props.Crash

/-!
# Follow-up versions terminate (C62)
-/

namespace Gocfl

/-- **C62, full statement** (false): whatever the extensions do, `EndUpdate` returns, after at most one follow-up
version per extension. -/
def C62_full : Prop :=
  ∀ (σ : Type) (w : World) (hk : Hooks σ) (v : VInfo) (s : σ) (o : Obj),
    ∃ k s' out, k ≤ hk.exts.length ∧ EndsIn w hk v k s o s' out

/-- How often each extension may still ask for a version: no hook raises the number, an extension that asks has some
left, and its own `DoNewVersion` uses one up. -/
structure Budget {σ : Type} (hk : Hooks σ) (left : Nat → σ → Nat) : Prop where
  before : ∀ s o i, left i (hk.before s o).1 ≤ left i s
  after : ∀ s o i, left i (hk.after s o).1 ≤ left i s
  need : ∀ (s : σ) (o : Obj) (i : Nat) (e : NVExt σ), hk.exts[i]? = some e → e.need s o = .ok true → 0 < left i s
  own : ∀ (s : σ) (o : Obj) (i : Nat) (e : NVExt σ), hk.exts[i]? = some e → left i (e.doNew s o).1 ≤ left i s - 1
  other : ∀ (s : σ) (o : Obj) (i j : Nat) (e : NVExt σ), hk.exts[j]? = some e → left i (e.doNew s o).1 ≤ left i s

theorem managerNeed_true {σ : Type} {es : List (NVExt σ)} {s : σ} {o : Obj} (h : managerNeed es s o = .ok true) :
    ∃ (i : Nat) (e : NVExt σ), es[i]? = some e ∧ e.need s o = .ok true := by
  induction es with
  | nil => cases h
  | cons e es ih =>
    simp only [managerNeed] at h
    split at h
    · cases h
    · rename_i hn
      exact ⟨0, e, rfl, hn⟩
    · obtain ⟨i, e', h1, h2⟩ := ih h
      exact ⟨i + 1, e', by simpa using h1, h2⟩

theorem managerDo_left {σ : Type} {w : World} {hk : Hooks σ} {left : Nat → σ → Nat} (hb : Budget hk left)
    {es : List (NVExt σ)} {j : Nat} (hes : hk.exts.drop j = es) {s s' : σ} {o o' : Obj}
    (h : managerDo w es s o = (s', ⟨o', none⟩)) :
    ∀ i, left i s' ≤ left i s ∧ (j ≤ i → i < hk.exts.length → left i s' ≤ left i s - 1) := by
  induction es generalizing j s o with
  | nil =>
    simp only [managerDo, ok] at h
    cases h
    intro i
    refine ⟨Nat.le_refl _, fun h1 h2 => ?_⟩
    have := List.drop_eq_nil_iff.1 hes
    omega
  | cons e es ih =>
    have hj : hk.exts[j]? = some e := by
      have := List.getElem?_drop (xs := hk.exts) (i := j) (j := 0)
      rw [hes] at this
      simpa using this.symm
    have hd : hk.exts.drop (j + 1) = es := by
      rw [← List.drop_drop, hes]; rfl
    simp only [managerDo] at h
    cases hr : runHook w e.doNew s o with
    | mk s1 out =>
      obtain ⟨o1, x⟩ := out
      rw [hr] at h
      cases x with
      | some x => simp at h
      | none =>
        simp only at h
        have hs1 : s1 = (e.doNew s o).1 := by
          have := congrArg Prod.fst hr; exact this.symm
        intro i
        obtain ⟨k1, k2⟩ := ih hd h i
        have k3 := hb.other s o i j e hj
        rw [← hs1] at k3
        refine ⟨Nat.le_trans k1 k3, fun h1 h2 => ?_⟩
        by_cases hij : i = j
        · subst hij
          have k4 := hb.own s o i e hj
          rw [← hs1] at k4
          omega
        · have := k2 (by omega) h2
          omega

theorem runHook_fst {σ : Type} (w : World) (h : Hook σ) (s : σ) (o : Obj) : (runHook w h s o).1 = (h s o).1 := rfl

theorem closeVersion_left {σ : Type} {w : World} {hk : Hooks σ} {left : Nat → σ → Nat} (hb : Budget hk left) (s : σ)
    (o : Obj) (i : Nat) : left i (closeVersion w hk s o).1 ≤ left i s := by
  unfold closeVersion
  split
  · exact Nat.le_refl _
  · split
    · rename_i heq
      have := congrArg Prod.fst heq
      rw [runHook_fst] at this
      simp only at this ⊢
      rw [← this]; exact hb.after _ _ _
    · rename_i heq
      have := congrArg Prod.fst heq
      rw [runHook_fst] at this
      simp only at this ⊢
      rw [← this]; exact hb.after _ _ _

theorem startHooks_left {σ : Type} {w : World} {hk : Hooks σ} {left : Nat → σ → Nat} (hb : Budget hk left) (s : σ)
    (o : Obj) (v : VInfo) (echo : Bool) (i : Nat) : left i (startHooks w hk s o v echo).1 ≤ left i s := by
  unfold startHooks
  split
  · exact Nat.le_refl _
  · rw [runHook_fst]; exact hb.before _ _ _

/-- what one activation that calls `EndUpdate` again went through -/
theorem endStep_again {σ : Type} {w : World} {hk : Hooks σ} {v : VInfo} {s s' : σ} {o o' : Obj}
    (h : endStep w hk v s o = .again s' o') :
    o.inv.writeable = true ∧ o.inv.modified = true ∧ ∃ s1 o1 s2 o2, closeVersion w hk s o = (s1, ⟨o1, none⟩) ∧
      managerNeed hk.exts s1 o1 = .ok true ∧ startHooks w hk s1 o1 v false = (s2, ⟨o2, none⟩) ∧
      managerDo w hk.exts s2 o2 = (s', ⟨o', none⟩) := by
  unfold endStep at h
  split at h
  · cases h
  · rename_i hw
    split at h
    · cases h
    · rename_i hm
      refine ⟨not_false_iff hw, not_false_iff hm, ?_⟩
      rcases hc : closeVersion w hk s o with ⟨s1, o1, x⟩
      rw [hc] at h
      cases x with
      | some x => cases h
      | none =>
        simp only at h
        cases hn : managerNeed hk.exts s1 o1 with
        | error x => rw [hn] at h; cases h
        | ok b =>
          rw [hn] at h
          cases b with
          | false => cases h
          | true =>
            simp only at h
            rcases hs : startHooks w hk s1 o1 v false with ⟨s2, o2, x⟩
            rw [hs] at h
            cases x with
            | some x => cases h
            | none =>
              simp only at h
              rcases hd : managerDo w hk.exts s2 o2 with ⟨s3, o3, x⟩
              rw [hd] at h
              cases x with
              | some x => cases h
              | none =>
                simp only at h
                cases h
                exact ⟨s1, o1, s2, o2, rfl, hn, hs, hd⟩

/-- **C62** for extensions that ask a bounded number of times: if every extension may ask at most `n` more times,
`EndUpdate` returns after at most `n` follow-up versions (together, not each: every version lets all extensions work).
In particular at most one if every extension asks at most once. -/
theorem C62_bounded_partial {σ : Type} {w : World} {hk : Hooks σ} {v : VInfo} {left : Nat → σ → Nat} (hb : Budget hk left)
    (n : Nat) (s : σ) (o : Obj) (hn : ∀ i, i < hk.exts.length → left i s ≤ n) :
    ∃ k s' out, k ≤ n ∧ EndsIn w hk v k s o s' out := by
  induction n generalizing s o with
  | zero =>
    cases he : endStep w hk v s o with
    | ret s' out => exact ⟨0, s', out, Nat.le_refl _, .ret he⟩
    | again s' o' =>
      obtain ⟨_, _, s1, o1, s2, o2, h1, h2, h3, h4⟩ := endStep_again he
      obtain ⟨i, e, hi, hne⟩ := managerNeed_true h2
      have k1 := hb.need _ _ i e hi hne
      have k2 := closeVersion_left (w := w) hb s o i
      rw [h1] at k2
      have k3 := hn i (List.getElem?_eq_some_iff.1 hi).1
      simp only at k2
      omega
  | succ n ih =>
    cases he : endStep w hk v s o with
    | ret s' out => exact ⟨0, s', out, Nat.zero_le _, .ret he⟩
    | again s' o' =>
      obtain ⟨_, _, s1, o1, s2, o2, h1, h2, h3, h4⟩ := endStep_again he
      obtain ⟨k, s'', out, hk1, hk2⟩ := ih s' o' (fun i hi => by
        have a1 := closeVersion_left (w := w) hb s o i
        rw [h1] at a1
        have a2 := startHooks_left (w := w) hb s1 o1 v false i
        rw [h3] at a2
        have a3 := (managerDo_left hb (j := 0) rfl h4 i).2 (Nat.zero_le _) hi
        have a4 := hn i hi
        simp only at a1 a2
        omega)
      exact ⟨k + 1, s'', out, by omega, .again he hk2⟩

/-- How an update ends is determined. -/
theorem endsIn_unique {σ : Type} {w : World} {hk : Hooks σ} {v : VInfo} {k k' : Nat} {s s1 s2 : σ} {o : Obj} {out out' : Out}
    (h : EndsIn w hk v k s o s1 out) (h' : EndsIn w hk v k' s o s2 out') : k = k' ∧ s1 = s2 ∧ out = out' := by
  induction h generalizing k' with
  | ret he =>
    cases h' with
    | ret he' => rw [he] at he'; cases he'; exact ⟨rfl, rfl, rfl⟩
    | again he' _ => rw [he] at he'; cases he'
  | again he _ ih =>
    cases h' with
    | ret he' => rw [he] at he'; cases he'
    | again he' h'' =>
      rw [he] at he'
      cases he'
      obtain ⟨a, b, c⟩ := ih h''
      exact ⟨by omega, b, c⟩

/-! ### The extensions of the repository -/

theorem repoExtsFrom_get {τ : Type} {r : RepoExts τ} {ks : List NVKind} {j i : Nat} {e : NVExt (τ × (Nat → MigSt))}
    (h : (repoExtsFrom r j ks)[i]? = some e) : ∃ k, ks[i]? = some k ∧ e = repoExt r (j + i) k := by
  induction ks generalizing j i with
  | nil => simp [repoExtsFrom] at h
  | cons k ks ih =>
    cases i with
    | zero =>
      simp only [repoExtsFrom, List.getElem?_cons_zero, Option.some.injEq] at h
      exact ⟨k, rfl, h.symm⟩
    | succ i =>
      simp only [repoExtsFrom, List.getElem?_cons_succ] at h
      obtain ⟨k', h1, h2⟩ := ih h
      exact ⟨k', by simpa using h1, by rw [h2]; congr 1; omega⟩

/-- a migration extension may ask once; once done never again -/
def migLeft {τ : Type} (ks : List NVKind) (i : Nat) (s : τ × (Nat → MigSt)) : Nat :=
  if ks[i]? = some .migration ∧ (s.2 i).done = false then 1 else 0

theorem repo_budget {τ : Type} (r : RepoExts τ) : Budget r.hooks (migLeft r.kinds) where
  before s o i := Nat.le_refl _
  after s o i := Nat.le_refl _
  need s o i e he hn := by
    obtain ⟨k, h1, h2⟩ := repoExtsFrom_get (r := r) (ks := r.kinds) (j := 0) he
    subst h2
    cases k with
    | filesystem => cases hn
    | migration =>
      simp only [repoExt, Except.ok.injEq, Bool.and_eq_true, Bool.not_eq_true', Nat.zero_add] at hn
      unfold migLeft
      rw [if_pos ⟨h1, hn.2⟩]
      exact Nat.one_pos
  own s o i e he := by
    obtain ⟨k, h1, h2⟩ := repoExtsFrom_get (r := r) (ks := r.kinds) (j := 0) he
    subst h2
    unfold migLeft
    rw [h1]
    cases k with
    | filesystem => simp
    | migration => simp [repoExt]
  other s o i j e he := by
    obtain ⟨k, h1, h2⟩ := repoExtsFrom_get (r := r) (ks := r.kinds) (j := 0) he
    subst h2
    unfold migLeft
    cases k with
    | filesystem => exact Nat.le_refl _
    | migration =>
      simp only [repoExt, Nat.zero_add]
      by_cases hij : i = j
      · subst hij; simp
      · simp only [if_neg hij]; exact Nat.le_refl _

/-- **C62 for the extensions of the repository**: with any number of filesystem and migration extensions in any order,
whatever files they find to migrate, whatever the migration does to the object and however it fails, `EndUpdate`
returns after at most one follow-up version in total. -/
theorem C62_repo_extensions {τ : Type} (w : World) (r : RepoExts τ) (v : VInfo) (s : τ × (Nat → MigSt)) (o : Obj) :
    ∃ k s' out, k ≤ 1 ∧ EndsIn w r.hooks v k s o s' out :=
  C62_bounded_partial (repo_budget r) 1 s o (fun i _ => by unfold migLeft; split <;> omega)

/-- ... and none at all once every migration extension is done. -/
theorem C62_repo_done {τ : Type} (w : World) (r : RepoExts τ) (v : VInfo) (s : τ × (Nat → MigSt)) (o : Obj)
    (hd : ∀ i, r.kinds[i]? = some .migration → (s.2 i).done = true) : ∃ s' out, EndsIn w r.hooks v 0 s o s' out := by
  obtain ⟨k, s', out, hk, h⟩ := C62_bounded_partial (w := w) (v := v) (repo_budget r) 0 s o (fun i _ => by
    unfold migLeft
    rw [if_neg (by rintro ⟨h1, h2⟩; rw [hd i h1] at h2; cases h2)])
  have : k = 0 := by omega
  subst this
  exact ⟨s', out, h⟩

/-! ### Connection with the sessions of `Model/Session.lean` -/

theorem andThen_assoc (x : Out) (f g : Obj → Out) :
    (x.andThen f).andThen g = x.andThen fun o => (f o).andThen g := by
  unfold Out.andThen
  cases h : x.err with
  | none => rfl
  | some e => simp only [h]

theorem runCalls_append (w : World) (o : Obj) (a b : List Call) :
    runCalls w o (a ++ b) = (runCalls w o a).andThen fun o => runCalls w o b := by
  induction a generalizing o with
  | nil => rfl
  | cons c a ih =>
    simp only [List.cons_append, runCalls]
    unfold Out.andThen
    cases h : (runCall w o c).err with
    | some x => simp only [h]
    | none => simp only [ih]; rfl

theorem runHook_ok {σ : Type} {w : World} {h : Hook σ} {s s' : σ} {o o' : Obj} (hr : runHook w h s o = (s', ⟨o', none⟩)) :
    ∃ cs, runCalls w o cs = ⟨o', none⟩ := by
  have h2 := congrArg Prod.snd hr
  simp only [runHook] at h2
  refine ⟨(h s o).2.1, ?_⟩
  unfold Out.andThen at h2
  cases he : runCalls w o (h s o).2.1 with
  | mk o1 x =>
    rw [he] at h2
    cases x with
    | some x => cases h2
    | none =>
      simp only [Out.mk.injEq] at h2
      rw [h2.1]

theorem managerDo_ok {σ : Type} {w : World} {es : List (NVExt σ)} {s s' : σ} {o o' : Obj}
    (h : managerDo w es s o = (s', ⟨o', none⟩)) : ∃ cs, runCalls w o cs = ⟨o', none⟩ := by
  induction es generalizing s o with
  | nil => simp only [managerDo, ok] at h; cases h; exact ⟨[], rfl⟩
  | cons e es ih =>
    simp only [managerDo] at h
    rcases hr : runHook w e.doNew s o with ⟨s1, o1, x⟩
    rw [hr] at h
    cases x with
    | some x => cases h
    | none =>
      obtain ⟨cs, h1⟩ := runHook_ok hr
      obtain ⟨cs', h2⟩ := ih h
      exact ⟨cs ++ cs', by rw [runCalls_append, h1]; exact h2⟩

/-- the end of a version as in `endUpdate` -/
theorem closeVersion_ok {σ : Type} {w : World} {hk : Hooks σ} {s s' : σ} {o o' : Obj}
    (h : closeVersion w hk s o = (s', ⟨o', none⟩)) : ∃ after,
      ((if o.echo then objEcho w o else ok o).andThen fun o =>
      (runCalls w o after).andThen fun o =>
      (withInv o (clean o.inv)).andThen fun o => storeInventory w o true false) = ⟨o', none⟩ := by
  unfold closeVersion at h
  rcases he : (if o.echo then objEcho w o else ok o) with ⟨o1, x⟩
  rw [he] at h
  cases x with
  | some x => cases h
  | none =>
    simp only at h
    rcases hr : runHook w hk.after s o1 with ⟨s2, o2, x⟩
    rw [hr] at h
    cases x with
    | some x => cases h
    | none =>
      simp only at h
      obtain ⟨cs, h1⟩ := runHook_ok hr
      refine ⟨cs, ?_⟩
      have : (Out.andThen ⟨o1, none⟩ fun o => (runCalls w o cs).andThen fun o =>
          (withInv o (clean o.inv)).andThen fun o => storeInventory w o true false) =
          (runCalls w o1 cs).andThen fun o => (withInv o (clean o.inv)).andThen fun o => storeInventory w o true false := rfl
      rw [this, h1]
      exact congrArg Prod.snd h

/-- An update that ends without error after `k` follow-up versions is one of the updates of `Model/Session.lean` with
`k` rounds: everything proved there about all sessions holds for it. -/
theorem endsIn_rounds {σ : Type} {w : World} {hk : Hooks σ} {v : VInfo} {k : Nat} {s s' : σ} {o : Obj} {out : Out}
    (h : EndsIn w hk v k s o s' out) (he : out.err = none) :
    ∃ after rounds, rounds.length = k ∧ (∀ r ∈ rounds, r.info = v) ∧ endUpdate w o after rounds = out := by
  induction h with
  | @ret s o s' out hs =>
    unfold endStep at hs
    by_cases hw : o.inv.writeable = false
    · rw [if_pos hw] at hs
      cases hs
      exact ⟨[], [], rfl, by simp, by simp [endUpdate, hw]⟩
    · rw [if_neg hw] at hs
      by_cases hm : o.inv.modified = false
      · rw [if_pos hm] at hs
        cases hs
        exact ⟨[], [], rfl, by simp, by simp [endUpdate, hm]⟩
      · rw [if_neg hm] at hs
        rcases hc : closeVersion w hk s o with ⟨s1, o1, x⟩
        rw [hc] at hs
        cases x with
        | some x => simp only at hs; cases hs; cases he
        | none =>
          obtain ⟨after, ha⟩ := closeVersion_ok hc
          refine ⟨after, [], rfl, by simp, ?_⟩
          have hend : endUpdate w o after [] = ⟨o1, none⟩ := by
            simp only [endUpdate, if_neg hw, if_neg hm]; exact ha
          rw [hend]
          simp only at hs
          cases hn : managerNeed hk.exts s1 o1 with
          | error x => rw [hn] at hs; cases hs; cases he
          | ok b =>
            rw [hn] at hs
            cases b with
            | false => cases hs; rfl
            | true =>
              simp only at hs
              rcases hst : startHooks w hk s1 o1 v false with ⟨s2, o2, x⟩
              rw [hst] at hs
              cases x with
              | some x => simp only at hs; cases hs; cases he
              | none =>
                simp only at hs
                rcases hd : managerDo w hk.exts s2 o2 with ⟨s3, o3, x⟩
                rw [hd] at hs
                cases x with
                | some x => simp only at hs; cases hs; cases he
                | none => cases hs
  | @again k s o s1 o1 s' out hs _ ih =>
    obtain ⟨after', rounds, h1, h2, h3⟩ := ih he
    obtain ⟨hw, hm, t1, p1, t2, p2, k1, k2, k3, k4⟩ := endStep_again hs
    obtain ⟨after, ha⟩ := closeVersion_ok k1
    obtain ⟨body, hb⟩ := managerDo_ok k4
    have hbef : ∃ before, startUpdate w p1 v false before = ⟨p2, none⟩ := by
      unfold startHooks at k3
      unfold startUpdate
      rcases hv : withInv { p1 with echo := false } (newVersion p1.inv v.msg v.userName v.userAddress v.now) with ⟨q, x⟩
      rw [hv] at k3
      cases x with
      | some x => cases k3
      | none =>
        obtain ⟨cs, hcs⟩ := runHook_ok k3
        exact ⟨cs, hcs⟩
    obtain ⟨before, hbef⟩ := hbef
    refine ⟨after, ⟨v, before, body, after'⟩ :: rounds, by simp [h1], ?_, ?_⟩
    · intro r hr
      rcases List.mem_cons.1 hr with rfl | hr
      · rfl
      · exact h2 r hr
    · simp only [endUpdate, hw, hm, Bool.true_eq_false, if_false]
      rw [show ((if o.echo then objEcho w o else ok o).andThen fun o => (runCalls w o after).andThen fun o =>
          (withInv o (clean o.inv)).andThen fun o => (storeInventory w o true false).andThen fun o =>
          (startUpdate w o v false before).andThen fun o => (runCalls w o body).andThen fun o => endUpdate w o after' rounds) =
        (((if o.echo then objEcho w o else ok o).andThen fun o => (runCalls w o after).andThen fun o =>
          (withInv o (clean o.inv)).andThen fun o => storeInventory w o true false).andThen fun o =>
          (startUpdate w o v false before).andThen fun o => (runCalls w o body).andThen fun o => endUpdate w o after' rounds)
        by simp only [andThen_assoc], ha]
      simp only [Out.andThen, hbef, hb]
      exact h3

/-! ### Extensions that never stop -/

/-- **C62 fails** for every open and changed object with an extension that always asks for a version and does nothing
else: `EndUpdate` never returns. -/
theorem C62_full_fails_forever {w : World} {v : VInfo} {o : Obj} {n : Nat} (hwf : WF o.inv n)
    (hw : o.inv.writeable = true) (hm : o.inv.modified = true) (he : o.echo = false)
    (ha : w.hash o.inv.digestAlg ≠ none) :
    ∀ k s' out, ¬ EndsIn w (⟨fun s _ => (s, [], none), fun s _ => (s, [], none),
      [⟨fun _ _ => .ok true, fun s _ => (s, [], none)⟩]⟩ : Hooks Unit) v k () o s' out := by
  intro k s' out h
  generalize hhk : (⟨fun s _ => (s, [], none), fun s _ => (s, [], none),
      [⟨fun _ _ => .ok true, fun s _ => (s, [], none)⟩]⟩ : Hooks Unit) = hk at h
  have key : ∀ {s : Unit} {o : Obj} {n : Nat}, WF o.inv n → o.inv.writeable = true → o.inv.modified = true → o.echo = false →
      w.hash o.inv.digestAlg ≠ none → ∃ o' m, endStep w hk v s o = .again () o' ∧ WF o'.inv m ∧ o'.inv.writeable = true ∧
        o'.inv.modified = true ∧ o'.echo = false ∧ w.hash o'.inv.digestAlg ≠ none := by
    intro s o n hwf hw hm he ha
    cases hh : w.hash o.inv.digestAlg with
    | none => exact absurd hh ha
    | some hf =>
      obtain ⟨inv', hnv, _⟩ := C02_new_version_copies (inv := o.inv) hwf.1 hwf.2 v.msg v.userName v.userAddress v.now
      have hfr := newVersion_frame hnv
      refine ⟨⟨inv', o.updateFiles, false, o.trace ++ (writeFile (verInvPath o.inv.head) (w.enc o.inv) ++
        writeFile (verSidecarPath o.inv.head o.inv.digestAlg) (sidecarText (hf (w.enc o.inv))))⟩, n + 1, ?_,
        newVersion_ok_gapFree hwf.1 hwf.2 hnv, hfr.2.2.2.1, hfr.2.2.2.2.2.2.2.1.trans hm, rfl, by
          rw [hfr.2.2.1]; exact ha⟩
      subst hhk
      have hc : clean o.inv = .ok o.inv := clean_modified hm
      simp only [endStep, hw, hm, Bool.true_eq_false, if_false, closeVersion, he, ok, runHook, runCalls, Out.andThen,
        withInv, hc, storeInventory, hh, Bool.false_eq_true, if_true, Obj.write, managerNeed, startHooks, hnv, managerDo,
        List.nil_append]
  clear hhk
  obtain ⟨s, hs0⟩ : ∃ s : Unit, s = () := ⟨(), rfl⟩
  rw [← hs0] at h
  clear hs0
  induction h generalizing n with
  | ret hs =>
    obtain ⟨o', m, h1, _⟩ := key hwf hw hm he ha
    rw [hs] at h1; cases h1
  | again hs _ ih =>
    obtain ⟨o', m, h1, h2, h3, h4, h5, h6⟩ := key hwf hw hm he ha
    rw [hs] at h1
    cases h1
    exact ih h2 h3 h4 h5 h6

/-- an object in an update -/
def exOpen : Obj := ⟨{ exInv with writeable := true, modified := true }, [], false, []⟩

theorem exOpen_wf : WF exOpen.inv 2 := ⟨⟨exInv_gapFree.1, exInv_gapFree.2⟩, exInv_mapKeysOk⟩

theorem C62_full_fails : ¬ C62_full := by
  intro hf
  obtain ⟨k, s', out, _, h⟩ := hf Unit exWorld (⟨fun s _ => (s, [], none), fun s _ => (s, [], none),
    [⟨fun _ _ => .ok true, fun s _ => (s, [], none)⟩]⟩) ⟨[], [], [], []⟩ () exOpen
  exact C62_full_fails_forever exOpen_wf rfl rfl rfl (by decide) k s' out h

/-- a migration which finds the file `a` and adds a converted copy -/
def exMig : RepoExts Unit where
  kinds := [.filesystem, .migration]
  before s _ := (s, [], none)
  after s _ := (s, [], none)
  collect _ _ _ _ := ["d1".toList]
  migrate _ s _ _ := (s, [.add "a.pdf".toList [] [7] true], none)

/-- exactly one follow-up version, although the file is found again afterwards -/
example : ∃ s' out, EndsIn exWorld exMig.hooks ⟨[], [], [], []⟩ 1 ((), fun _ => ⟨[], false⟩) exOpen s' out ∧
    out.err = none ∧ out.obj.inv.head = "v3".toList := by
  cases h : endStep exWorld exMig.hooks ⟨[], [], [], []⟩ ((), fun _ => ⟨[], false⟩) exOpen with
  | ret s out =>
    have hx : (match endStep exWorld exMig.hooks ⟨[], [], [], []⟩ ((), fun _ => ⟨[], false⟩) exOpen with
      | .ret _ _ => true | .again _ _ => false) = false := by decide
    rw [h] at hx
    cases hx
  | again s1 o1 =>
    have hd : (match endStep exWorld exMig.hooks ⟨[], [], [], []⟩ ((), fun _ => ⟨[], false⟩) exOpen with
      | .ret _ _ => false | .again s _ => (s.2 1).done) = true := by decide
    rw [h] at hd
    obtain ⟨s', out, h'⟩ := C62_repo_done exWorld exMig ⟨[], [], [], []⟩ s1 o1 (by
      intro i hi
      match i, hi with
      | 1, _ => exact hd)
    have hr : (match endStep exWorld exMig.hooks ⟨[], [], [], []⟩ ((), fun _ => ⟨[], false⟩) exOpen with
      | .ret _ _ => none
      | .again s o => match endStep exWorld exMig.hooks ⟨[], [], [], []⟩ s o with
        | .ret _ out => some (out.err, out.obj.inv.head)
        | .again _ _ => none) = some (none, "v3".toList) := by decide
    rw [h] at hr
    refine ⟨s', out, .again h h', ?_⟩
    cases h' with
    | ret hs =>
      simp only [hs, Option.some.injEq, Prod.mk.injEq] at hr
      exact hr

end Gocfl
