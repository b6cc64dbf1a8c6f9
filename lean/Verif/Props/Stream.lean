import Verif.Model.Stream
import Mathlib.Algebra.BigOperators.Group.Finset.Basic
import Mathlib.Algebra.Order.BigOperators.Group.Finset

/-!
# C63: streaming to extensions while a file is added
-/

namespace Gocfl

open Function (update)

/-- C63 in full: whatever the extensions do and however the goroutines are scheduled, nothing can happen any more only
when `addReader` has returned and every extension's pipe has delivered the whole stream (if the copy did not fail). -/
def C63_full : Prop :=
  ∀ (n cap : Nat) (ab : Bool) (prog : Nat → EProg) (data : Bytes) (s : SState), 0 < cap → SReach n cap ab prog data s →
    (∀ t, ¬ SStep n cap ab prog s t) →
    s.main = .aborted ∨ ∃ e, s.main = .done e ∧ ∀ i, i < n → (s.pipe i).rclosed = false → s.got i = data

/-- The extension never closes the reader it was given. -/
def NoClose (prog : Nat → EProg) : Prop := ∀ i h, prog i h ≠ .close

/-- The extension returns after at most `b` attempts to read beyond the end of the stream. -/
def StopsAtEOF (b : Nat) (prog : Nat → EProg) : Prop :=
  ∀ i h, b ≤ h.count none → ∃ e, prog i h = .ret e

/-- what of the current chunk still has to be written for extension `i` -/
def GPc.part (g : GPc) (i : Nat) : Bytes :=
  match g with
  | .write c p j => if i < j then [] else if i = j then p else c
  | .blocked c p j => if i < j then [] else if i = j then p else c
  | _ => []

/-- the copy is over -/
def GPc.after (g : GPc) : Prop :=
  match g with
  | .read => False
  | .write _ _ _ => False
  | .blocked _ _ _ => False
  | _ => True

/-- the buffer of extension `i` has been flushed for the last time -/
def GPc.flushed (g : GPc) (i : Nat) : Prop :=
  match g with
  | .flush j => i < j
  | .flushBlocked j => i ≤ j
  | .close _ => True
  | .wait => True
  | .done _ => True
  | _ => False

/-- the pipe of extension `i` has been closed -/
def GPc.shut (g : GPc) (i : Nat) : Prop :=
  match g with
  | .close j => i < j
  | .wait => True
  | .done _ => True
  | _ => False

/-- inside a `Write` to the pipe of extension `i` -/
def GPc.inWrite (g : GPc) (i : Nat) : Prop :=
  match g with
  | .blocked _ _ j => i = j
  | .flushBlocked j => i = j
  | _ => False

def GPc.idxOk (n : Nat) (g : GPc) : Prop :=
  match g with
  | .blocked _ _ j => j < n
  | .flushBlocked j => j < n
  | _ => True

def MPc.over (m : MPc) : Prop :=
  match m with
  | .copy => False
  | .blocked => False
  | _ => True

/-- What every schedule keeps. -/
structure SInv (n : Nat) (data : Bytes) (s : SState) : Prop where
  flow : ∀ i, i < n → s.got i ++ ((s.pipe i).pend ++ (s.buf i ++ (s.mgr.part i ++ (s.p0pend ++ s.src)))) = data
  copyPend : s.main = .copy → s.p0pend = []
  p0 : s.p0closed = true ↔ s.main.over
  p0pend : s.p0closed = true → s.p0pend = []
  srcWait : s.main = .wait → s.src = []
  srcDone : ∀ e, s.main = .done e → s.src = [] ∧ s.mgr = .done e
  after : s.mgr.after → s.p0closed = true
  idx : s.mgr.idxOk n
  inWrite : ∀ i, (s.pipe i).pend ≠ [] → s.mgr.inWrite i
  shut : ∀ i, i < n → ((s.pipe i).closed = true ↔ s.mgr.shut i)
  flushed : ∀ i, i < n → s.mgr.flushed i → s.buf i = []
  extDone : ∀ i e, i < n → s.ext i = .done e → (s.pipe i).closed = true
  mgrDone : ∀ e, s.mgr = .done e → (∀ i, i < n → ∃ e, s.ext i = .done e) ∧
    (e = true ↔ ∃ i, i < n ∧ s.ext i = .done true)
  open' : ∀ i, (s.pipe i).rclosed = false
  healthy : ∀ i, s.failed i = false

theorem sInv_init (n : Nat) (data : Bytes) : SInv n data (streamInit data) := by
  constructor <;> simp [streamInit, GPc.part, GPc.after, GPc.idxOk, GPc.inWrite, GPc.shut, GPc.flushed, MPc.over]

theorem upd_pend_closed (f : Nat → SPipe) (k i : Nat) (p : Bytes) :
    (update f k { f k with pend := p } i).closed = (f i).closed := by
  by_cases h : i = k
  · subst h; simp
  · simp [h]

theorem upd_pend_rclosed (f : Nat → SPipe) (k i : Nat) (p : Bytes) :
    (update f k { f k with pend := p } i).rclosed = (f i).rclosed := by
  by_cases h : i = k
  · subst h; simp
  · simp [h]

theorem upd_pend_pend (f : Nat → SPipe) (k i : Nat) (p : Bytes) :
    (update f k { f k with pend := p } i).pend = if i = k then p else (f i).pend := by
  by_cases h : i = k
  · subst h; simp
  · simp [h]

theorem upd_closed_rclosed (f : Nat → SPipe) (k i : Nat) (b : Bool) :
    (update f k { f k with closed := b } i).rclosed = (f i).rclosed := by
  by_cases h : i = k
  · subst h; simp
  · simp [h]

theorem upd_closed_pend (f : Nat → SPipe) (k i : Nat) (b : Bool) :
    (update f k { f k with closed := b } i).pend = (f i).pend := by
  by_cases h : i = k
  · subst h; simp
  · simp [h]

theorem upd_closed_closed (f : Nat → SPipe) (k i : Nat) (b : Bool) :
    (update f k { f k with closed := b } i).closed = if i = k then b else (f i).closed := by
  by_cases h : i = k
  · subst h; simp
  · simp [h]

theorem sInv_step {n cap : Nat} {ab : Bool} {prog : Nat → EProg} {data : Bytes} {s t : SState} (hc : NoClose prog)
    (hi : SInv n data s) (h : SStep n cap ab prog s t) : SInv n data t := by
  obtain ⟨flow, copyPend, p0, p0pend, srcWait, srcDone, after, idx, inWrite, shut, flushed, extDone, mgrDone, opn,
    healthy⟩ := hi
  have noPend : (∀ i, ¬ s.mgr.inWrite i) → ∀ i, (s.pipe i).pend = [] := by
    intro h i
    by_contra hne
    exact h i (inWrite i hne)
  cases h with
  | mainWrite h1 h2 h3 =>
    have := copyPend h1
    rw [h1] at p0
    rw [h3, this] at flow
    constructor
    all_goals first | assumption | skip
    all_goals clear mgrDone extDone
    all_goals simp_all [MPc.over]
  | mainNext h1 h2 =>
    rw [h1] at p0
    constructor
    all_goals first | assumption | skip
    all_goals clear mgrDone extDone
    all_goals simp_all [MPc.over]
  | mainClose h1 h2 =>
    constructor
    all_goals first | assumption | skip
    all_goals clear mgrDone extDone
    all_goals simp_all [MPc.over]
  | mainAbort h0 h1 =>
    constructor
    all_goals first | assumption | skip
    all_goals clear mgrDone extDone
    all_goals simp_all [MPc.over]
  | mainDone h1 h2 =>
    constructor
    all_goals first | assumption | skip
    all_goals clear mgrDone extDone
    all_goals simp_all [MPc.over]
  | mgrRead h1 h2 h3 =>
    rename_i x y
    have hpend := noPend (by simp [h1, GPc.inWrite])
    have hx : s.p0pend ≠ [] := by simp [h3, h2]
    constructor
    all_goals first | assumption | skip
    · intro i hi
      have := flow i hi
      have hp : GPc.part (.write x x 0) i = x := by unfold GPc.part; simp
      simp only [hp]
      rw [h1, h3] at this
      simpa [GPc.part] using this
    all_goals clear mgrDone extDone flow
    all_goals simp_all [GPc.after, GPc.idxOk, GPc.inWrite, GPc.shut, GPc.flushed]
  | mgrEOF h1 h2 h3 =>
    have hpend := noPend (by simp [h1, GPc.inWrite])
    constructor
    all_goals first | assumption | skip
    all_goals clear mgrDone extDone
    all_goals simp_all [GPc.after, GPc.idxOk, GPc.inWrite, GPc.shut, GPc.flushed, GPc.part]
  | mgrNext h1 h2 =>
    rename_i c p k
    have hpend := noPend (by simp [h1, GPc.inWrite])
    constructor
    all_goals first | assumption | skip
    · intro i hi
      have := flow i hi
      have hlt : i < k := by omega
      rw [h1] at this
      simpa [GPc.part, hlt] using this
    all_goals clear mgrDone extDone flow
    all_goals simp_all [GPc.after, GPc.idxOk, GPc.inWrite, GPc.shut, GPc.flushed]
  | mgrBuffer h1 h2 h3 =>
    rename_i c p k
    have hpend := noPend (by simp [h1, GPc.inWrite])
    constructor
    all_goals first | assumption | skip
    · intro i hi
      have := flow i hi
      rw [h1] at this
      simp only [GPc.part] at this ⊢
      rcases Nat.lt_trichotomy i k with hlt | heq | hgt
      · have : i ≠ k := by omega
        have : i < k + 1 := by omega
        simp_all
      · subst heq
        simpa [List.append_assoc] using this
      · have h4 : i ≠ k := by omega
        have h5 : ¬ i < k := by omega
        have h6 : ¬ i < k + 1 := by omega
        simp only [h4, h5, h6, if_false, ne_eq, not_false_eq_true, Function.update_of_ne] at this ⊢
        split <;> simpa using this
    all_goals clear mgrDone extDone flow
    all_goals simp_all [GPc.after, GPc.idxOk, GPc.inWrite, GPc.shut, GPc.flushed]
  | mgrDirect h1 h2 h3 h4 =>
    rename_i c p k
    have hpend := noPend (by simp [h1, GPc.inWrite])
    constructor
    all_goals first | assumption | skip
    all_goals simp only [upd_pend_closed, upd_pend_rclosed, upd_pend_pend]
    all_goals first | assumption | skip
    case flow =>
      intro i hi
      have := flow i hi
      rw [h1] at this
      simp only [GPc.part] at this ⊢
      by_cases hik : i = k
      · subst hik
        simpa [h4, hpend i] using this
      · simpa [hik] using this
    all_goals clear mgrDone extDone flow
    all_goals simp_all [GPc.after, GPc.flushed, GPc.shut, GPc.idxOk, GPc.inWrite]
  | mgrFill h1 h2 h3 h4 =>
    rename_i c p k
    have hpend := noPend (by simp [h1, GPc.inWrite])
    constructor
    all_goals first | assumption | skip
    all_goals simp only [upd_pend_closed, upd_pend_rclosed, upd_pend_pend]
    all_goals first | assumption | skip
    case flow =>
      intro i hi
      have := flow i hi
      rw [h1] at this
      simp only [GPc.part] at this ⊢
      by_cases hik : i = k
      · subst hik
        rw [← this]
        simp only [if_true, lt_irrefl, if_false, hpend i, Function.update_self, List.nil_append, List.append_assoc]
        rw [← List.append_assoc (List.take _ _) (List.drop _ _), List.take_append_drop]
      · simpa [hik] using this
    all_goals clear mgrDone extDone flow
    all_goals simp_all [GPc.after, GPc.flushed, GPc.shut, GPc.idxOk, GPc.inWrite]
  | mgrUnblock h1 h2 =>
    rename_i c p k
    constructor
    all_goals first | assumption | skip
    case inWrite =>
      intro i hi
      have := inWrite i hi
      simp only [h1, GPc.inWrite] at this
      subst this
      exact absurd h2 hi
    all_goals clear mgrDone extDone
    all_goals simp_all [GPc.after, GPc.flushed, GPc.shut, GPc.idxOk, GPc.part]
  | mgrBroken h1 h2 h3 => simp_all
  | mgrFlushSkip h1 h2 h3 h4 =>
    rename_i k
    have hpend := noPend (by simp [h1, GPc.inWrite])
    constructor
    all_goals first | assumption | skip
    case flushed =>
      intro i hi hf
      simp only [h1, GPc.flushed] at hf flushed
      rcases Nat.lt_or_ge i k with h | h
      · exact flushed i hi h
      · have : i = k := by omega
        subst this; exact h4
    all_goals clear mgrDone extDone
    all_goals simp_all [GPc.after, GPc.flushed, GPc.shut, GPc.idxOk, GPc.part]
  | mgrFlush h1 h2 h3 h4 =>
    rename_i k
    have hpend := noPend (by simp [h1, GPc.inWrite])
    constructor
    all_goals first | assumption | skip
    all_goals simp only [upd_pend_closed, upd_pend_rclosed, upd_pend_pend]
    all_goals first | assumption | skip
    case flow =>
      intro i hi
      have := flow i hi
      rw [h1] at this
      simp only [GPc.part] at this ⊢
      by_cases hik : i = k
      · subst hik
        simpa [hpend i] using this
      · simpa [hik] using this
    case flushed =>
      intro i hi hf
      simp only [h1, GPc.flushed] at hf flushed
      by_cases hik : i = k
      · simp [hik]
      · simp only [ne_eq, hik, not_false_eq_true, Function.update_of_ne]
        exact flushed i hi (by omega)
    all_goals clear mgrDone extDone flow
    all_goals simp_all [GPc.after, GPc.flushed, GPc.shut, GPc.idxOk, GPc.inWrite]
  | mgrFlushed h1 h2 =>
    rename_i k
    constructor
    all_goals first | assumption | skip
    case inWrite =>
      intro i hi
      have := inWrite i hi
      simp only [h1, GPc.inWrite] at this
      subst this
      exact absurd h2 hi
    case flushed =>
      intro i hi hf
      simp only [h1, GPc.flushed] at hf flushed
      exact flushed i hi (by omega)
    all_goals clear mgrDone extDone
    all_goals simp_all [GPc.after, GPc.flushed, GPc.shut, GPc.idxOk, GPc.part]
  | mgrFlushBroken h1 h2 h3 => simp_all
  | mgrFlushFailed h1 h2 h3 => simp_all
  | mgrFlushEnd h1 h2 =>
    rename_i k
    have hpend := noPend (by simp [h1, GPc.inWrite])
    constructor
    all_goals first | assumption | skip
    case flushed =>
      intro i hi _
      simp only [h1, GPc.flushed] at flushed
      exact flushed i hi (by omega)
    all_goals clear mgrDone extDone
    all_goals simp_all [GPc.after, GPc.flushed, GPc.shut, GPc.idxOk, GPc.part]
  | mgrClose h1 h2 =>
    rename_i k
    have hpend := noPend (by simp [h1, GPc.inWrite])
    constructor
    all_goals first | assumption | skip
    all_goals simp only [upd_closed_closed, upd_closed_rclosed, upd_closed_pend]
    all_goals first | assumption | skip
    case shut =>
      intro i hi
      have := shut i hi
      simp only [h1, GPc.shut] at this ⊢
      by_cases hik : i = k
      · simp [hik]
      · simp only [hik, if_false, this]
        omega
    case extDone =>
      intro i e hi he
      split
      · rfl
      · exact extDone i e hi he
    all_goals clear mgrDone extDone
    all_goals simp_all [GPc.after, GPc.flushed, GPc.idxOk, GPc.part]
  | mgrCloseEnd h1 h2 =>
    rename_i k
    have hpend := noPend (by simp [h1, GPc.inWrite])
    constructor
    all_goals first | assumption | skip
    case shut =>
      intro i hi
      have := shut i hi
      simp only [h1, GPc.shut] at this ⊢
      simp only [this, iff_true]
      omega
    all_goals clear mgrDone extDone
    all_goals simp_all [GPc.after, GPc.flushed, GPc.idxOk, GPc.part]
  | mgrDone h1 h2 h3 =>
    rename_i e
    have hpend := noPend (by simp [h1, GPc.inWrite])
    constructor
    all_goals first | assumption | skip
    case mgrDone =>
      intro e' he'
      simp only [GPc.done.injEq] at he'
      subst he'
      exact ⟨h2, h3⟩
    all_goals clear mgrDone extDone
    all_goals simp_all [GPc.after, GPc.flushed, GPc.shut, GPc.idxOk, GPc.part]
  | extRet h1 h2 h3 =>
    rename_i k h e
    constructor
    all_goals first | assumption | skip
    case extDone =>
      intro i e hi he
      by_cases hik : i = k
      · subst hik; simp at he
      · simp only [ne_eq, hik, not_false_eq_true, Function.update_of_ne] at he
        exact extDone i e hi he
    case mgrDone =>
      intro e he
      obtain ⟨e', h⟩ := (mgrDone e he).1 _ h1
      rw [h2] at h
      cases h
  | extRead h1 h2 h3 h4 h5 =>
    rename_i k m h
    constructor
    all_goals first | assumption | skip
    all_goals simp only [upd_pend_closed, upd_pend_rclosed, upd_pend_pend]
    all_goals first | assumption | skip
    case flow =>
      intro i hi
      have := flow i hi
      by_cases hik : i = k
      · subst hik
        rw [← this]
        simp only [if_true, Function.update_self, List.append_assoc]
        rw [← List.append_assoc (List.take _ _) (List.drop _ _), List.take_append_drop]
      · simpa [hik] using this
    case inWrite =>
      intro i hi
      by_cases hik : i = k
      · subst hik; exact inWrite i h5
      · simp only [hik, if_false] at hi; exact inWrite i hi
    case extDone =>
      intro i e hi he
      by_cases hik : i = k
      · subst hik; simp at he
      · simp only [ne_eq, hik, not_false_eq_true, Function.update_of_ne] at he
        exact extDone i e hi he
    case mgrDone =>
      intro e he
      obtain ⟨e', h⟩ := (mgrDone e he).1 _ h1
      rw [h2] at h
      cases h
  | extEOF h1 h2 h3 h4 =>
    rename_i k m h
    constructor
    all_goals first | assumption | skip
    case extDone =>
      intro i e hi he
      by_cases hik : i = k
      · subst hik; simp at he
      · simp only [ne_eq, hik, not_false_eq_true, Function.update_of_ne] at he
        exact extDone i e hi he
    case mgrDone =>
      intro e he
      obtain ⟨e', h⟩ := (mgrDone e he).1 _ h1
      rw [h2] at h
      cases h
  | extClose h1 h2 h3 => exact absurd h3 (hc _ _)
  | extDrain h1 h2 h3 h4 h5 =>
    rename_i k e x y
    constructor
    all_goals first | assumption | skip
    all_goals simp only [upd_pend_closed, upd_pend_rclosed, upd_pend_pend]
    all_goals first | assumption | skip
    case flow =>
      intro i hi
      have := flow i hi
      by_cases hik : i = k
      · subst hik
        rw [← this, h5]
        simp only [if_true, Function.update_self, List.append_assoc]
      · simpa [hik] using this
    case inWrite =>
      intro i hi
      by_cases hik : i = k
      · subst hik; exact inWrite i (by rw [h5]; simp [h4])
      · simp only [hik, if_false] at hi; exact inWrite i hi
  | extDone h1 h2 h3 =>
    rename_i k e
    constructor
    all_goals first | assumption | skip
    case extDone =>
      intro i e hi he
      by_cases hik : i = k
      · subst hik
        rcases h3 with h3 | h3
        · rw [opn i] at h3; cases h3
        · exact h3.2
      · simp only [ne_eq, hik, not_false_eq_true, Function.update_of_ne] at he
        exact extDone i e hi he
    case mgrDone =>
      intro e he
      obtain ⟨e', h⟩ := (mgrDone e he).1 _ h1
      rw [h2] at h
      cases h

theorem sInv_reach {n cap : Nat} {ab : Bool} {prog : Nat → EProg} {data : Bytes} {s : SState} (hc : NoClose prog)
    (h : SReach n cap ab prog data s) : SInv n data s := by
  induction h with
  | refl => exact sInv_init n data
  | tail _ hs ih => exact sInv_step hc ih hs

/-- Nothing is left to do: `addReader` has returned and all goroutines have ended. -/
def StreamEnd (n : Nat) (s : SState) : Prop :=
  ((∃ e, s.main = .done e) ∨ s.main = .aborted) ∧ (∃ e, s.mgr = .done e) ∧ ∀ i, i < n → ∃ e, s.ext i = .done e

/-- an extension that is not finished can go on if its pipe has something or is closed -/
theorem ext_moves {n cap : Nat} {ab : Bool} {prog : Nat → EProg} {s : SState} {i : Nat} (hc : NoClose prog) (hi : i < n)
    (ho : (s.pipe i).rclosed = false) (hp : (s.pipe i).pend ≠ [] ∨ (s.pipe i).closed = true)
    (hd : ∀ e, s.ext i ≠ .done e) : ∃ t, SStep n cap ab prog s t := by
  by_cases hpend : (s.pipe i).pend = []
  · have hcl : (s.pipe i).closed = true := by
      rcases hp with h | h
      · exact absurd hpend h
      · exact h
    cases hx : s.ext i with
    | run h =>
      cases ha : prog i h with
      | read m => exact ⟨_, .extEOF hi hx ha (Or.inr ⟨hpend, hcl⟩)⟩
      | close => exact absurd ha (hc i h)
      | ret e => exact ⟨_, .extRet hi hx ha⟩
    | drain e => exact ⟨_, .extDone hi hx (Or.inr ⟨hpend, hcl⟩)⟩
    | done e => exact absurd hx (hd e)
  · cases hx : s.ext i with
    | run h =>
      cases ha : prog i h with
      | read m => exact ⟨_, .extRead hi hx ha ho hpend⟩
      | close => exact absurd ha (hc i h)
      | ret e => exact ⟨_, .extRet hi hx ha⟩
    | drain e =>
      exact ⟨_, .extDrain (x := (s.pipe i).pend) (y := []) hi hx ho hpend (by simp)⟩
    | done e => exact absurd hx (hd e)

/-- Nobody gets stuck. -/
theorem stream_moves {n cap : Nat} {ab : Bool} {prog : Nat → EProg} {data : Bytes} {s : SState} (hc : NoClose prog)
    (hi : SInv n data s) (hend : ¬ StreamEnd n s) : ∃ t, SStep n cap ab prog s t := by
  have busy : ∀ i, i < n → (s.pipe i).pend ≠ [] → ∃ t, SStep n cap ab prog s t := by
    intro i hin hp
    refine ext_moves hc hin (hi.open' i) (Or.inl hp) ?_
    intro e he
    have h1 := (hi.shut i hin).1 (hi.extDone i e hin he)
    have h2 := hi.inWrite i hp
    revert h1 h2
    cases s.mgr <;> simp [GPc.shut, GPc.inWrite]
  have mainGoes : s.main = .copy → ∃ t, SStep n cap ab prog s t := by
    intro hmm
    by_cases hs : s.src = []
    · exact ⟨_, .mainClose hmm hs⟩
    · exact ⟨_, .mainWrite (x := s.src) (y := []) hmm hs (by simp)⟩
  cases hm : s.mgr with
  | read =>
    by_cases hp : s.p0pend = []
    · by_cases hcl : s.p0closed = true
      · exact ⟨_, .mgrEOF hm hp hcl⟩
      · cases hmm : s.main with
        | copy => exact mainGoes hmm
        | blocked => exact ⟨_, .mainNext hmm hp⟩
        | wait => exact absurd (hi.p0.2 (by rw [hmm]; trivial)) hcl
        | done e => exact absurd (hi.p0.2 (by rw [hmm]; trivial)) hcl
        | aborted => exact absurd (hi.p0.2 (by rw [hmm]; trivial)) hcl
    · exact ⟨_, .mgrRead (x := s.p0pend) (y := []) hm hp (by simp)⟩
  | write c p i =>
    by_cases hin : i < n
    · by_cases hl : p.length ≤ cap - (s.buf i).length
      · exact ⟨_, .mgrBuffer hm hin hl⟩
      · by_cases hb : s.buf i = []
        · exact ⟨_, .mgrDirect hm hin hl hb⟩
        · exact ⟨_, .mgrFill hm hin hl hb⟩
    · exact ⟨_, .mgrNext hm hin⟩
  | blocked c p i =>
    by_cases hp : (s.pipe i).pend = []
    · exact ⟨_, .mgrUnblock hm hp⟩
    · have := hi.idx
      rw [hm] at this
      exact busy i this hp
  | flush i =>
    by_cases hin : i < n
    · by_cases hb : s.buf i = []
      · exact ⟨_, .mgrFlushSkip hm hin (hi.healthy i) hb⟩
      · exact ⟨_, .mgrFlush hm hin (hi.healthy i) hb⟩
    · exact ⟨_, .mgrFlushEnd hm hin⟩
  | flushBlocked i =>
    by_cases hp : (s.pipe i).pend = []
    · exact ⟨_, .mgrFlushed hm hp⟩
    · have := hi.idx
      rw [hm] at this
      exact busy i this hp
  | close i =>
    by_cases hin : i < n
    · exact ⟨_, .mgrClose hm hin⟩
    · exact ⟨_, .mgrCloseEnd hm hin⟩
  | wait =>
    by_cases hall : ∀ i, i < n → ∃ e, s.ext i = .done e
    · by_cases he : ∃ i, i < n ∧ s.ext i = .done true
      · exact ⟨_, .mgrDone (e := true) hm hall (by simpa using he)⟩
      · exact ⟨_, .mgrDone (e := false) hm hall (by simpa using he)⟩
    · push Not at hall
      obtain ⟨i, hin, hne⟩ := hall
      exact ext_moves hc hin (hi.open' i) (Or.inr ((hi.shut i hin).2 (by rw [hm]; trivial))) hne
  | done e =>
    have hall := (hi.mgrDone e hm).1
    have hcl := hi.after (by rw [hm]; trivial)
    cases hmm : s.main with
    | copy => exact mainGoes hmm
    | blocked => exact ⟨_, .mainNext hmm (hi.p0pend hcl)⟩
    | wait => exact ⟨_, .mainDone hmm hm⟩
    | done e' => exact absurd ⟨Or.inl ⟨e', hmm⟩, ⟨e, hm⟩, hall⟩ hend
    | aborted => exact absurd ⟨Or.inr hmm, ⟨e, hm⟩, hall⟩ hend

def MPc.rank : MPc → Nat
  | .copy => 2
  | .blocked => 3
  | .wait => 1
  | .done _ => 0
  | .aborted => 0

def GPc.phase : GPc → Nat
  | .read => 4
  | .write _ _ _ => 4
  | .blocked _ _ _ => 4
  | .flush _ => 3
  | .flushBlocked _ => 3
  | .close _ => 2
  | .wait => 1
  | .done _ => 0

def GPc.idx (n : Nat) : GPc → Nat
  | .read => 0
  | .write _ _ j => n + 1 - j + (j - n)
  | .blocked _ _ j => n + 1 - j + (j - n)
  | .flush j => n - j
  | .flushBlocked j => n - j
  | .close j => n - j
  | .wait => 0
  | .done _ => 0

def GPc.rest : GPc → Nat
  | .write _ p _ => p.length
  | .blocked _ p _ => p.length
  | _ => 0

def GPc.held (buf : Nat → Bytes) : GPc → Nat
  | .write _ _ j => (buf j).length
  | .blocked _ _ j => (buf j).length
  | .flush j => (buf j).length
  | .flushBlocked j => (buf j).length
  | _ => 0

def GPc.waits : GPc → Nat
  | .blocked _ _ _ => 1
  | _ => 0

def EPc.rank (b : Nat) : EPc → Nat
  | .run h => 2 + (b - h.count none)
  | .drain _ => 1
  | .done _ => 0

/-- what is left to do for the extensions -/
def extWork (n b : Nat) (s : SState) : Nat := ∑ i ∈ Finset.range n, ((s.pipe i).pend.length + (s.ext i).rank b)

/-- lexicographic order of what is left to do -/
abbrev StreamRank := Nat × Nat × Nat × Nat × Nat × Nat × Nat × Nat × Nat

def streamRank (n b : Nat) (s : SState) : StreamRank :=
  (s.src.length, s.main.rank, s.p0pend.length, s.mgr.phase, s.mgr.idx n, s.mgr.rest, s.mgr.held s.buf, s.mgr.waits,
    extWork n b s)

def rankLt (a b : StreamRank) : Prop := (inferInstance : WellFoundedRelation StreamRank).rel a b

theorem rankLt_wf : WellFounded rankLt := (inferInstance : WellFoundedRelation StreamRank).wf

theorem rankLt_iff (a1 a2 a3 a4 a5 a6 a7 a8 a9 b1 b2 b3 b4 b5 b6 b7 b8 b9 : Nat) :
    rankLt (a1, a2, a3, a4, a5, a6, a7, a8, a9) (b1, b2, b3, b4, b5, b6, b7, b8, b9) ↔
      a1 < b1 ∨ a1 = b1 ∧ (a2 < b2 ∨ a2 = b2 ∧ (a3 < b3 ∨ a3 = b3 ∧ (a4 < b4 ∨ a4 = b4 ∧ (a5 < b5 ∨ a5 = b5 ∧
        (a6 < b6 ∨ a6 = b6 ∧ (a7 < b7 ∨ a7 = b7 ∧ (a8 < b8 ∨ a8 = b8 ∧ a9 < b9))))))) := by
  unfold rankLt
  simp only [WellFoundedRelation.rel, Prod.lex_def, InvImage, sizeOf_nat]

theorem extWork_lt {n b i : Nat} {s t : SState} (hi : i < n)
    (h1 : ∀ j, j ≠ i → (t.pipe j).pend.length + (t.ext j).rank b = (s.pipe j).pend.length + (s.ext j).rank b)
    (h2 : (t.pipe i).pend.length + (t.ext i).rank b < (s.pipe i).pend.length + (s.ext i).rank b) :
    extWork n b t < extWork n b s := by
  unfold extWork
  apply Finset.sum_lt_sum
  · intro j _
    by_cases hj : j = i
    · subst hj; omega
    · exact (h1 j hj).le
  · exact ⟨i, Finset.mem_range.2 hi, h2⟩

theorem idxOk_step {n cap : Nat} {ab : Bool} {prog : Nat → EProg} {s t : SState} (hx : s.mgr.idxOk n)
    (h : SStep n cap ab prog s t) : t.mgr.idxOk n := by
  cases h <;> first | assumption | trivial

theorem stream_decreases {n cap b : Nat} {ab : Bool} {prog : Nat → EProg} {s t : SState} (hb : StopsAtEOF b prog)
    (hx : s.mgr.idxOk n) (h : SStep n cap ab prog s t) : rankLt (streamRank n b t) (streamRank n b s) := by
  have hcount : ∀ {i h m}, prog i h = .read m → h.count none < b := by
    intro i h m hr
    by_contra hle
    obtain ⟨e, he⟩ := hb i h (by omega)
    rw [hr] at he; cases he
  have hcountC : ∀ {i h}, prog i h = .close → h.count none < b := by
    intro i h hr
    by_contra hle
    obtain ⟨e, he⟩ := hb i h (by omega)
    rw [hr] at he; cases he
  unfold streamRank
  rw [rankLt_iff]
  cases h with
  | mainWrite h1 h2 h3 =>
    rename_i x y
    have : 0 < x.length := List.length_pos_iff.2 h2
    simp only [h3, lt_irrefl, true_and, false_or, List.length_append]; omega
  | mainNext h1 h2 => simp [h1, MPc.rank]
  | mainClose h1 h2 => simp [h1, MPc.rank]
  | mainAbort h0 h1 => simp [h1, MPc.rank]
  | mainDone h1 h2 => simp [h1, MPc.rank]
  | mgrRead h1 h2 h3 =>
    rename_i x y
    have : 0 < x.length := List.length_pos_iff.2 h2
    simp only [h3, lt_irrefl, true_and, false_or, List.length_append]; omega
  | mgrEOF h1 h2 h3 => simp [h1, GPc.phase]
  | mgrNext h1 h2 => simp [h1, GPc.phase, GPc.idx]; omega
  | mgrBuffer h1 h2 h3 =>
    simp only [h1, lt_irrefl, true_and, false_or, GPc.phase, GPc.idx]
    omega
  | mgrDirect h1 h2 h3 h4 =>
    simp only [h1, lt_irrefl, true_and, false_or, GPc.phase, GPc.idx, GPc.rest, List.length_nil]
    omega
  | mgrFill h1 h2 h3 h4 =>
    have := List.length_pos_iff.2 h4
    simp only [h1, lt_irrefl, true_and, false_or, GPc.phase, GPc.idx, GPc.rest, GPc.held, List.length_drop, Function.update_self, List.length_nil]
    omega
  | mgrUnblock h1 h2 => simp [h1, GPc.phase, GPc.idx, GPc.rest, GPc.held, GPc.waits]
  | mgrBroken h1 h2 h3 => simp [h1, GPc.phase]
  | mgrFlushSkip h1 h2 h3 h4 => simp only [h1, lt_irrefl, true_and, false_or, GPc.phase, GPc.idx]; omega
  | mgrFlush h1 h2 h3 h4 =>
    have := List.length_pos_iff.2 h4
    simp only [h1, lt_irrefl, true_and, false_or, GPc.phase, GPc.idx, GPc.rest, GPc.held, Function.update_self, List.length_nil]
    omega
  | mgrFlushed h1 h2 =>
    rw [h1] at hx
    simp only [GPc.idxOk] at hx
    simp only [h1, lt_irrefl, true_and, false_or, GPc.phase, GPc.idx]; omega
  | mgrFlushBroken h1 h2 h3 => simp [h1, GPc.phase]
  | mgrFlushFailed h1 h2 h3 => simp [h1, GPc.phase]
  | mgrFlushEnd h1 h2 => simp [h1, GPc.phase]
  | mgrClose h1 h2 => simp only [h1, lt_irrefl, true_and, false_or, GPc.phase, GPc.idx]; omega
  | mgrCloseEnd h1 h2 => simp [h1, GPc.phase]
  | mgrDone h1 h2 h3 => simp [h1, GPc.phase]
  | extRet h1 h2 h3 =>
    simp only [lt_irrefl, true_and, false_or]
    refine extWork_lt h1 ?_ ?_
    · intro j hj; simp [hj]
    · simp [h2, EPc.rank]; omega
  | extRead h1 h2 h3 h4 h5 =>
    have := List.length_pos_iff.2 h5
    simp only [lt_irrefl, true_and, false_or]
    refine extWork_lt h1 ?_ ?_
    · intro j hj; simp [hj]
    · simp [h2, EPc.rank]; omega
  | extEOF h1 h2 h3 h4 =>
    have := hcount h3
    simp only [lt_irrefl, true_and, false_or]
    refine extWork_lt h1 ?_ ?_
    · intro j hj; simp [hj]
    · simp [h2, EPc.rank]; omega
  | extClose h1 h2 h3 =>
    have := hcountC h3
    simp only [lt_irrefl, true_and, false_or]
    refine extWork_lt h1 ?_ ?_
    · intro j hj; simp [hj]
    · simp [h2, EPc.rank]; omega
  | extDrain h1 h2 h3 h4 h5 =>
    have := List.length_pos_iff.2 h4
    simp only [lt_irrefl, true_and, false_or]
    refine extWork_lt h1 ?_ ?_
    · intro j hj; simp [hj]
    · simp [h2, h5, EPc.rank]; omega
  | extDone h1 h2 h3 =>
    simp only [lt_irrefl, true_and, false_or]
    refine extWork_lt h1 ?_ ?_
    · intro j hj; simp [hj]
    · simp [h2, EPc.rank]

/-- no schedule goes on forever -/
theorem stream_finite {n cap b : Nat} {ab : Bool} {prog : Nat → EProg} (data : Bytes) (hb : StopsAtEOF b prog) :
    ¬ ∃ f : Nat → SState, f 0 = streamInit data ∧ ∀ k, SStep n cap ab prog (f k) (f (k + 1)) := by
  rintro ⟨f, h0, hs⟩
  have hx : ∀ k, (f k).mgr.idxOk n := by
    intro k
    induction k with
    | zero => rw [h0]; trivial
    | succ k ih => exact idxOk_step ih (hs k)
  have hd : ∀ k, rankLt (streamRank n b (f (k + 1))) (streamRank n b (f k)) :=
    fun k => stream_decreases hb (hx k) (hs k)
  have key : ∀ r : StreamRank, ∀ k, streamRank n b (f k) = r → False := by
    intro r
    induction r using rankLt_wf.induction with
    | _ r ih =>
      intro k hk
      exact ih _ (hk ▸ hd k) (k + 1) rfl
  exact key _ 0 rfl

/-- C63 for extensions that do not close the reader they were given and that stop reading after (finitely many
attempts beyond) the end of the stream; they may stop earlier and they may fail.  Whatever the schedule, the content
and the number of extensions:
* no execution goes on forever;
* as long as something is left to do some goroutine can go on;
* when everything has ended and the copy itself did not fail, every extension's pipe has delivered the whole content,
  and `addReader` reports an error exactly if an extension failed;
* at any time what an extension has received is a prefix of the content. -/
theorem C63_never_blocks_partial (n cap b : Nat) (ab : Bool) (prog : Nat → EProg) (data : Bytes) (hc : NoClose prog)
    (hb : StopsAtEOF b prog) :
    (¬ ∃ f : Nat → SState, f 0 = streamInit data ∧ ∀ k, SStep n cap ab prog (f k) (f (k + 1))) ∧
    ∀ s, SReach n cap ab prog data s →
      ((∃ t, SStep n cap ab prog s t) ∨ StreamEnd n s) ∧
      (∀ e, s.main = .done e →
        (∀ i, i < n → s.got i = data ∧ ∃ e, s.ext i = .done e) ∧ (e = true ↔ ∃ i, i < n ∧ s.ext i = .done true)) ∧
      (∀ i, i < n → s.got i <+: data) := by
  refine ⟨stream_finite data hb, ?_⟩
  intro s hs
  have hi := sInv_reach hc hs
  refine ⟨?_, ?_, ?_⟩
  · by_cases he : StreamEnd n s
    · exact Or.inr he
    · exact Or.inl (stream_moves hc hi he)
  · intro e he
    obtain ⟨h1, h2⟩ := hi.srcDone e he
    obtain ⟨h3, h4⟩ := hi.mgrDone e h2
    refine ⟨?_, h4⟩
    intro i hin
    refine ⟨?_, h3 i hin⟩
    have hf := hi.flow i hin
    have hp : (s.pipe i).pend = [] := by
      by_contra hne
      have := hi.inWrite i hne
      rw [h2] at this
      exact this
    have hbuf := hi.flushed i hin (by rw [h2]; trivial)
    have hcl := hi.p0pend (hi.after (by rw [h2]; trivial))
    simpa [hp, hbuf, hcl, h1, h2, GPc.part] using hf
  · intro i hin
    exact ⟨_, hi.flow i hin⟩

/-- no step aborts if nothing fails -/
theorem never_aborted {n cap : Nat} {prog : Nat → EProg} {data : Bytes} {s : SState}
    (h : SReach n cap false prog data s) : s.main ≠ .aborted := by
  induction h with
  | refl => simp [streamInit]
  | tail _ hs ih => cases hs <;> simp_all

/-- If source and file do not fail, every execution that cannot go on has added the file. -/
theorem C63_completes_partial (n cap b : Nat) (prog : Nat → EProg) (data : Bytes) (hc : NoClose prog)
    (hb : StopsAtEOF b prog) (s : SState) (hs : SReach n cap false prog data s)
    (hstuck : ∀ t, ¬ SStep n cap false prog s t) :
    ∃ e, s.main = .done e ∧ (e = true ↔ ∃ i, i < n ∧ s.ext i = .done true) ∧ ∀ i, i < n → s.got i = data := by
  obtain ⟨h1, h2, _⟩ := (C63_never_blocks_partial n cap b false prog data hc hb).2 s hs
  rcases h1 with ⟨t, ht⟩ | hend
  · exact absurd ht (hstuck t)
  · rcases hend.1 with ⟨e, he⟩ | he
    · obtain ⟨h3, h4⟩ := h2 e he
      exact ⟨e, he, h4, fun i hi => (h3 i hi).1⟩
    · exact absurd he (never_aborted hs)

/-- an extension that closes its reader at once and then returns without error -/
def closer : EProg := fun h => if h = [] then .close else .ret false

/-- `k` bytes are in the buffer of the extension, which has already ended -/
structure Buffered (data : Bytes) (k : Nat) (s : SState) : Prop where
  src : s.src = data.drop k
  main : s.main = .copy
  pend : s.p0pend = []
  mgr : s.mgr = .read
  buf : (s.buf 0).length = k
  rclosed : (s.pipe 0).rclosed = true
  ext : s.ext 0 = .done false

theorem closer_ends (cap : Nat) (ab : Bool) (data : Bytes) :
    ∃ s, SReach 1 cap ab (fun _ => closer) data s ∧ Buffered data 0 s := by
  have s1 := SStep.extClose (n := 1) (cap := cap) (ab := ab) (prog := fun _ => closer) (s := streamInit data) (i := 0)
    (h := []) (by decide) rfl rfl
  have s2 := SStep.extRet (n := 1) (cap := cap) (ab := ab) (prog := fun _ => closer) (i := 0) (h := [none]) (e := false)
    (s := { streamInit data with
        pipe := update (streamInit data).pipe 0 { (streamInit data).pipe 0 with rclosed := true }
        ext := update (streamInit data).ext 0 (.run ([] ++ [none])) }) (by decide) (by simp) rfl
  have s3 := SStep.extDone (n := 1) (cap := cap) (ab := ab) (prog := fun _ => closer) (i := 0) (e := false)
    (s := { streamInit data with
        pipe := update (streamInit data).pipe 0 { (streamInit data).pipe 0 with rclosed := true }
        ext := update (update (streamInit data).ext 0 (.run ([] ++ [none]))) 0 (.drain false) }) (by decide) (by simp)
        (Or.inl (by simp))
  refine ⟨_, ((Relation.ReflTransGen.refl.tail s1).tail s2).tail s3, ?_⟩
  constructor <;> simp [streamInit]

theorem buffer_one {cap : Nat} {ab : Bool} {data : Bytes} {k : Nat} {s : SState} (hk : k < cap) (hd : k < data.length)
    (hs : SReach 1 cap ab (fun _ => closer) data s) (h : Buffered data k s) :
    ∃ s, SReach 1 cap ab (fun _ => closer) data s ∧ Buffered data (k + 1) s := by
  obtain ⟨src, main, pend, mgr, buf, rclosed, ext⟩ := h
  have hsrc : s.src = [data[k]] ++ data.drop (k + 1) := by
    rw [src]; simp
  have r1 := hs.tail (SStep.mainWrite main (by simp) hsrc)
  have r2 := r1.tail (SStep.mgrRead (x := [data[k]]) (y := []) mgr (by simp) (by simp))
  have r3 := r2.tail (SStep.mgrBuffer rfl (by decide) (by simp only [List.length_cons, List.length_nil, buf]; omega))
  have r4 := r3.tail (SStep.mgrNext rfl (by decide))
  have r5 := r4.tail (SStep.mainNext rfl rfl)
  refine ⟨_, r5, ?_⟩
  constructor <;> simp [buf, rclosed, ext]

theorem buffer_full {cap : Nat} {ab : Bool} {data : Bytes} (hd : cap ≤ data.length) :
    ∀ k, k ≤ cap → ∃ s, SReach 1 cap ab (fun _ => closer) data s ∧ Buffered data k s := by
  intro k
  induction k with
  | zero => intro _; exact closer_ends cap ab data
  | succ k ih =>
    intro hk
    obtain ⟨s, hs, hb⟩ := ih (by omega)
    exact buffer_one (by omega) (by omega) hs hb

/-- C63 fails: an extension that closes its reader — it gets an `io.Reader` that is an `*io.PipeReader` — makes the
manager's `StreamObject` return without reading on; for every content at least two bytes longer than the buffer there
is a schedule after which `addReader` waits forever. -/
theorem C63_full_fails_close (cap : Nat) (hcap : 0 < cap) (ab : Bool) (data : Bytes) (hd : cap + 2 ≤ data.length) :
    ∃ s, SReach 1 cap ab (fun _ => closer) data s ∧ (∀ t, ¬ SStep 1 cap ab (fun _ => closer) s t) ∧
      s.main = .blocked := by
  obtain ⟨s, hs, src, main, pend, mgr, buf, rclosed, ext⟩ := buffer_full (ab := ab) (data := data) (by omega) cap le_rfl
  have hk1 : cap < data.length := by omega
  have hk2 : cap + 1 < data.length := by omega
  have hsrc : s.src = [data[cap]] ++ ([data[cap + 1]] ++ data.drop (cap + 2)) := by
    rw [src]; simp
  have hbuf : s.buf 0 ≠ [] := by
    intro h0; rw [h0] at buf; simp only [List.length_nil] at buf; omega
  have r1 := hs.tail (SStep.mainWrite main (by simp) hsrc)
  have r2 := r1.tail (SStep.mgrRead (x := [data[cap]]) (y := []) mgr (by simp) (by simp))
  have r3 := r2.tail (SStep.mgrFill rfl (by decide)
    (by simp only [List.length_cons, List.length_nil, buf]; omega) hbuf)
  have r4 := r3.tail (SStep.mgrBroken rfl (by simp [hbuf]) (by simp [rclosed]))
  have r5 := r4.tail (SStep.mgrFlushFailed rfl (by decide) (by simp))
  have r6 := r5.tail (SStep.mainNext rfl rfl)
  have r7 := r6.tail (SStep.mainWrite (x := [data[cap + 1]]) (y := data.drop (cap + 2)) rfl (by simp) (by simp))
  refine ⟨_, r7, ?_, rfl⟩
  intro t ht
  cases ht <;> simp_all

theorem C63_full_fails : ¬ C63_full := by
  intro h
  obtain ⟨s, hs, hstuck, hm⟩ := C63_full_fails_close 1 (by decide) false [1, 2, 3] (by decide)
  rcases h 1 1 false (fun _ => closer) [1, 2, 3] s (by decide) hs hstuck with h | ⟨e, h, _⟩
  · rw [hm] at h; cases h
  · rw [hm] at h; cases h

/-! ## The hypotheses can be met -/

/-- an extension that reads everything in pieces of 1000 bytes, one that fails at once and one that fails after the
first piece -/
def exProgs : Nat → EProg
  | 0 => fun h => if none ∈ h then .ret false else .read 999
  | 1 => fun _ => .ret true
  | _ => fun h => match h with
    | [] => .read 15
    | _ => .ret true

example : NoClose exProgs ∧ StopsAtEOF 1 exProgs := by
  refine ⟨?_, ?_⟩
  · intro i h
    match i with
    | 0 => simp only [exProgs]; split <;> simp
    | 1 => simp [exProgs]
    | n + 2 => simp only [exProgs]; split <;> simp
  · intro i h hc
    have hm : none ∈ h := List.count_pos_iff.1 (by omega)
    match i with
    | 0 => exact ⟨false, by simp [exProgs, hm]⟩
    | 1 => exact ⟨true, rfl⟩
    | n + 2 =>
      refine ⟨true, ?_⟩
      cases h with
      | nil => simp at hm
      | cons a t => rfl

end Gocfl
