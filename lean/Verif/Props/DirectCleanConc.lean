import Verif.Model.DirectCleanConc

/-!
# C60: concurrent path building
-/

namespace Gocfl

/-- C60 in full: whatever the interleaving, every call returns what it returns alone. -/
def C60_full : Prop :=
  ∀ (hash : Str → Str) (c : DCCfg) (calls : Nat → Str) (st : DState) (i : Nat) (r : Res Str),
    DReach hash c calls st → st.pc i = .done r → r = dcBuild hash c (calls i)

theorem dcFallback_digest (hash : Str → Str) (c : DCCfg) (n : Str) :
    dcFallback (fun _ => hash n) c n = dcFallback hash c n := rfl

/-- building with fallback -/
theorem dcBuild_hashed {hash : Str → Str} {c : DCCfg} {f n : Str} (h : dcHashed c f = some n) :
    dcBuild hash c f = dcFallback hash c n := by
  unfold dcHashed at h
  unfold dcBuild
  cases hd : dcSegs c (splitOn '/' f) with
  | none => rw [hd] at h; cases h; rfl
  | some segs =>
    rw [hd] at h
    simp only at h ⊢
    split at h
    · rename_i hlt; cases h; rw [if_pos hlt]
    · cases h

/-- inside the critical section -/
def DPc.inside : DPc → Prop
  | .locked => True
  | .reset => True
  | .written => True
  | _ => False

/-- between `Reset` and `Sum` -/
def DPc.pending : DPc → Prop
  | .reset => True
  | .written => True
  | .unlocked => True
  | _ => False

/-- nothing, or what one of the calls hashes -/
def OneName (c : DCCfg) (calls : Nat → Str) (a : Str) : Prop := a = [] ∨ ∃ j, dcHashed c (calls j) = some a

/-- What every interleaving keeps. -/
structure DInv (hash : Str → Str) (c : DCCfg) (calls : Nat → Str) (st : DState) : Prop where
  /-- who is in the critical section holds the mutex -/
  owner : ∀ i, (st.pc i).inside → st.owner = some i
  /-- and has its own data in the hash -/
  reset : ∀ i, st.pc i = .reset → st.acc = []
  written : ∀ i, st.pc i = .written → dcHashed c (calls i) = some st.acc
  /-- a finished call without fallback has its result -/
  plain : ∀ i r, st.pc i = .done r → dcHashed c (calls i) = none → r = dcBuild hash c (calls i)
  /-- as long as a call waits for its digest the hash contains nothing or the name of one call -/
  acc : ∀ i, (st.pc i).pending → OneName c calls st.acc
  /-- a result comes from the empty string or the name of one call -/
  done : ∀ i r n, st.pc i = .done r → dcHashed c (calls i) = some n →
    ∃ a, OneName c calls a ∧ r = dcFallback (fun _ => hash a) c n

theorem DInv.init {hash : Str → Str} {c : DCCfg} {calls : Nat → Str} {st : DState} (h : DInit st) :
    DInv hash c calls st where
  owner := fun i hi => by rw [h.2 i] at hi; exact hi.elim
  reset := fun i hi => by rw [h.2 i] at hi; cases hi
  written := fun i hi => by rw [h.2 i] at hi; cases hi
  plain := fun i r hi => by rw [h.2 i] at hi; cases hi
  acc := fun i hi => by rw [h.2 i] at hi; exact hi.elim
  done := fun i r n hi => by rw [h.2 i] at hi; cases hi

/-- the states of the threads after one of them has moved on -/
theorem update_cases {pc : Nat → DPc} {i j : Nat} {x y : DPc} (h : Function.update pc i x j = y) :
    (j = i ∧ x = y) ∨ (j ≠ i ∧ pc j = y) := by
  by_cases hj : j = i
  · subst hj; rw [Function.update_self] at h; exact Or.inl ⟨rfl, h⟩
  · rw [Function.update_of_ne hj] at h; exact Or.inr ⟨hj, h⟩

theorem inside_cases {pc : Nat → DPc} {i j : Nat} {x : DPc} (h : (Function.update pc i x j).inside) :
    (j = i ∧ x.inside) ∨ (j ≠ i ∧ (pc j).inside) := by
  rcases update_cases (rfl : Function.update pc i x j = _) with ⟨h1, h2⟩ | ⟨h1, h2⟩
  · rw [← h2] at h; exact Or.inl ⟨h1, h⟩
  · rw [← h2] at h; exact Or.inr ⟨h1, h⟩

theorem pending_cases {pc : Nat → DPc} {i j : Nat} {x : DPc} (h : (Function.update pc i x j).pending) :
    (j = i ∧ x.pending) ∨ (j ≠ i ∧ (pc j).pending) := by
  rcases update_cases (rfl : Function.update pc i x j = _) with ⟨h1, h2⟩ | ⟨h1, h2⟩
  · rw [← h2] at h; exact Or.inl ⟨h1, h⟩
  · rw [← h2] at h; exact Or.inr ⟨h1, h⟩

theorem DInv.step {hash : Str → Str} {c : DCCfg} {calls : Nat → Str} {st st' : DState} (h : DInv hash c calls st)
    (hs : DStep hash c calls st st') : DInv hash c calls st' := by
  cases hs with
  | plain i hr hn =>
    refine ⟨?_, ?_, ?_, ?_, ?_, ?_⟩
    · intro j hj
      rcases inside_cases hj with ⟨_, h2⟩ | ⟨_, h2⟩
      · exact h2.elim
      · exact h.owner j h2
    · intro j hj
      rcases update_cases hj with ⟨_, h2⟩ | ⟨_, h2⟩
      · cases h2
      · exact h.reset j h2
    · intro j hj
      rcases update_cases hj with ⟨_, h2⟩ | ⟨_, h2⟩
      · cases h2
      · exact h.written j h2
    · intro j r hj h0
      rcases update_cases hj with ⟨rfl, h2⟩ | ⟨_, h2⟩
      · cases h2; rfl
      · exact h.plain j r h2 h0
    · intro j hj
      rcases pending_cases hj with ⟨_, h2⟩ | ⟨_, h2⟩
      · exact h2.elim
      · exact h.acc j h2
    · intro j r n hj h0
      rcases update_cases hj with ⟨rfl, h2⟩ | ⟨_, h2⟩
      · rw [hn] at h0; cases h0
      · exact h.done j r n h2 h0
  | lock i n hr hn ho =>
    have hout : ∀ j, ¬ (st.pc j).inside := fun j hj => by
      have := h.owner j hj
      rw [ho] at this; cases this
    refine ⟨?_, ?_, ?_, ?_, ?_, ?_⟩
    · intro j hj
      rcases inside_cases hj with ⟨rfl, _⟩ | ⟨_, h2⟩
      · rfl
      · exact absurd h2 (hout j)
    · intro j hj
      rcases update_cases hj with ⟨_, h2⟩ | ⟨_, h2⟩
      · cases h2
      · exact h.reset j h2
    · intro j hj
      rcases update_cases hj with ⟨_, h2⟩ | ⟨_, h2⟩
      · cases h2
      · exact h.written j h2
    · intro j r hj h0
      rcases update_cases hj with ⟨rfl, h2⟩ | ⟨_, h2⟩
      · cases h2
      · exact h.plain j r h2 h0
    · intro j hj
      rcases pending_cases hj with ⟨_, h2⟩ | ⟨_, h2⟩
      · exact h2.elim
      · exact h.acc j h2
    · intro j r n hj h0
      rcases update_cases hj with ⟨rfl, h2⟩ | ⟨_, h2⟩
      · cases h2
      · exact h.done j r n h2 h0
  | reset i hi =>
    have ho := h.owner i (by rw [hi]; trivial)
    refine ⟨?_, ?_, ?_, ?_, ?_, ?_⟩
    · intro j hj
      rcases inside_cases hj with ⟨rfl, _⟩ | ⟨_, h2⟩
      · exact ho
      · exact h.owner j h2
    · intro j hj; rfl
    · intro j hj
      rcases update_cases hj with ⟨_, h2⟩ | ⟨hne, h2⟩
      · cases h2
      · have := h.owner j (by rw [h2]; trivial)
        rw [ho] at this; cases this; exact absurd rfl hne
    · intro j r hj h0
      rcases update_cases hj with ⟨rfl, h2⟩ | ⟨_, h2⟩
      · cases h2
      · exact h.plain j r h2 h0
    · intro j hj; exact Or.inl rfl
    · intro j r n hj h0
      rcases update_cases hj with ⟨rfl, h2⟩ | ⟨_, h2⟩
      · cases h2
      · exact h.done j r n h2 h0
  | write i n hi hn =>
    have ho := h.owner i (by rw [hi]; trivial)
    have ha : st.acc ++ n = n := by rw [h.reset i hi]; rfl
    refine ⟨?_, ?_, ?_, ?_, ?_, ?_⟩
    · intro j hj
      rcases inside_cases hj with ⟨rfl, _⟩ | ⟨_, h2⟩
      · exact ho
      · exact h.owner j h2
    · intro j hj
      rcases update_cases hj with ⟨_, h2⟩ | ⟨hne, h2⟩
      · cases h2
      · have := h.owner j (by rw [h2]; trivial)
        rw [ho] at this; cases this; exact absurd rfl hne
    · intro j hj
      rcases update_cases hj with ⟨rfl, h2⟩ | ⟨hne, h2⟩
      · show dcHashed c (calls j) = some (st.acc ++ n)
        rw [ha]; exact hn
      · have := h.owner j (by rw [h2]; trivial)
        rw [ho] at this; cases this; exact absurd rfl hne
    · intro j r hj h0
      rcases update_cases hj with ⟨rfl, h2⟩ | ⟨_, h2⟩
      · cases h2
      · exact h.plain j r h2 h0
    · intro j hj
      exact Or.inr ⟨i, by show _ = some (st.acc ++ n); rw [ha]; exact hn⟩
    · intro j r n hj h0
      rcases update_cases hj with ⟨rfl, h2⟩ | ⟨_, h2⟩
      · cases h2
      · exact h.done j r n h2 h0
  | unlock i hi =>
    have ho := h.owner i (by rw [hi]; trivial)
    refine ⟨?_, ?_, ?_, ?_, ?_, ?_⟩
    · intro j hj
      rcases inside_cases hj with ⟨_, h2⟩ | ⟨hne, h2⟩
      · exact h2.elim
      · have := h.owner j h2
        rw [ho] at this; cases this; exact absurd rfl hne
    · intro j hj
      rcases update_cases hj with ⟨_, h2⟩ | ⟨hne, h2⟩
      · cases h2
      · exact h.reset j h2
    · intro j hj
      rcases update_cases hj with ⟨rfl, h2⟩ | ⟨hne, h2⟩
      · cases h2
      · exact h.written j h2
    · intro j r hj h0
      rcases update_cases hj with ⟨rfl, h2⟩ | ⟨_, h2⟩
      · cases h2
      · exact h.plain j r h2 h0
    · intro j hj
      exact h.acc i (by rw [hi]; trivial)
    · intro j r n hj h0
      rcases update_cases hj with ⟨rfl, h2⟩ | ⟨_, h2⟩
      · cases h2
      · exact h.done j r n h2 h0
  | sum i n hi hn =>
    refine ⟨?_, ?_, ?_, ?_, ?_, ?_⟩
    · intro j hj
      rcases inside_cases hj with ⟨_, h2⟩ | ⟨hne, h2⟩
      · exact h2.elim
      · exact h.owner j h2
    · intro j hj
      rcases update_cases hj with ⟨_, h2⟩ | ⟨hne, h2⟩
      · cases h2
      · exact h.reset j h2
    · intro j hj
      rcases update_cases hj with ⟨rfl, h2⟩ | ⟨hne, h2⟩
      · cases h2
      · exact h.written j h2
    · intro j r hj h0
      rcases update_cases hj with ⟨rfl, h2⟩ | ⟨_, h2⟩
      · rw [hn] at h0; cases h0
      · exact h.plain j r h2 h0
    · intro j hj
      rcases pending_cases hj with ⟨_, h2⟩ | ⟨_, h2⟩
      · exact h2.elim
      · exact h.acc j h2
    · intro j r m hj h0
      rcases update_cases hj with ⟨rfl, h2⟩ | ⟨_, h2⟩
      · cases h2
        rw [hn] at h0
        cases h0
        exact ⟨st.acc, h.acc j (by rw [hi]; trivial), rfl⟩
      · exact h.done j r m h2 h0

theorem DReach.inv {hash : Str → Str} {c : DCCfg} {calls : Nat → Str} {st : DState} (h : DReach hash c calls st) :
    DInv hash c calls st := by
  obtain ⟨s0, h0, hs⟩ := h
  induction hs with
  | refl => exact DInv.init h0
  | tail _ hst ih => exact ih.step hst

/-- **C60, the part that holds for every interleaving**: calls whose paths need no fallback return what they return
alone; every other call returns the path made of the digest of nothing or of what one of the calls (maybe another one)
hashes. -/
theorem C60_results_partial {hash : Str → Str} {c : DCCfg} {calls : Nat → Str} {st : DState} {i : Nat} {r : Res Str}
    (h : DReach hash c calls st) (hr : st.pc i = .done r) :
    (dcHashed c (calls i) = none → r = dcBuild hash c (calls i)) ∧
    ∀ n, dcHashed c (calls i) = some n →
      ∃ a, (a = [] ∨ ∃ j, dcHashed c (calls j) = some a) ∧ r = dcFallback (fun _ => hash a) c n :=
  ⟨h.inv.plain i r hr, fun n hn => h.inv.done i r n hr hn⟩

/-- **C60, mutual exclusion**: never are two calls between `Lock` and `Unlock`. -/
theorem C60_mutual_exclusion {hash : Str → Str} {c : DCCfg} {calls : Nat → Str} {st : DState} {i j : Nat}
    (h : DReach hash c calls st) (hi : (st.pc i).inside) (hj : (st.pc j).inside) : i = j := by
  have h1 := h.inv.owner i hi
  rw [h.inv.owner j hj] at h1
  cases h1; rfl

/-! ### When the digest is taken before another call enters -/

/-- a step that does not enter the critical section while a call still has to take its digest -/
def CalmStep (hash : Str → Str) (c : DCCfg) (calls : Nat → Str) (a b : DState) : Prop :=
  DStep hash c calls a b ∧ ∀ i, a.pc i = .ready → b.pc i = .locked → ∀ j, a.pc j ≠ .unlocked

/-- What calm interleavings keep. -/
structure CalmInv (hash : Str → Str) (c : DCCfg) (calls : Nat → Str) (st : DState) : Prop where
  /-- a call waiting for its digest finds its own name in the hash, and nobody is in the critical section -/
  unlocked : ∀ i, st.pc i = .unlocked → dcHashed c (calls i) = some st.acc ∧ ∀ j, ¬ (st.pc j).inside
  one : ∀ i j, st.pc i = .unlocked → st.pc j = .unlocked → i = j
  done : ∀ i r, st.pc i = .done r → r = dcBuild hash c (calls i)

theorem CalmInv.step {hash : Str → Str} {c : DCCfg} {calls : Nat → Str} {st st' : DState} (hI : DInv hash c calls st)
    (h : CalmInv hash c calls st) (hs : CalmStep hash c calls st st') : CalmInv hash c calls st' := by
  obtain ⟨hs, hc⟩ := hs
  cases hs with
  | plain i hr hn =>
    refine ⟨?_, ?_, ?_⟩
    · intro j hj
      rcases update_cases hj with ⟨_, h2⟩ | ⟨_, h2⟩
      · cases h2
      · refine ⟨(h.unlocked j h2).1, fun k hk => ?_⟩
        rcases inside_cases hk with ⟨_, h3⟩ | ⟨_, h3⟩
        · exact h3
        · exact (h.unlocked j h2).2 k h3
    · intro j k hj hk
      rcases update_cases hj with ⟨_, h2⟩ | ⟨_, h2⟩
      · cases h2
      · rcases update_cases hk with ⟨_, h3⟩ | ⟨_, h3⟩
        · cases h3
        · exact h.one j k h2 h3
    · intro j r hj
      rcases update_cases hj with ⟨rfl, h2⟩ | ⟨_, h2⟩
      · cases h2; rfl
      · exact h.done j r h2
  | lock i n hr hn ho =>
    have hno := hc i hr (Function.update_self ..)
    refine ⟨?_, ?_, ?_⟩
    · intro j hj
      rcases update_cases hj with ⟨_, h2⟩ | ⟨_, h2⟩
      · cases h2
      · exact absurd h2 (hno j)
    · intro j k hj hk
      rcases update_cases hj with ⟨_, h2⟩ | ⟨_, h2⟩
      · cases h2
      · exact absurd h2 (hno j)
    · intro j r hj
      rcases update_cases hj with ⟨rfl, h2⟩ | ⟨_, h2⟩
      · cases h2
      · exact h.done j r h2
  | reset i hi =>
    refine ⟨?_, ?_, ?_⟩
    · intro j hj
      rcases update_cases hj with ⟨_, h2⟩ | ⟨_, h2⟩
      · cases h2
      · exact absurd (by rw [hi]; trivial) ((h.unlocked j h2).2 i)
    · intro j k hj hk
      rcases update_cases hj with ⟨_, h2⟩ | ⟨_, h2⟩
      · cases h2
      · exact absurd (by rw [hi]; trivial) ((h.unlocked j h2).2 i)
    · intro j r hj
      rcases update_cases hj with ⟨rfl, h2⟩ | ⟨_, h2⟩
      · cases h2
      · exact h.done j r h2
  | write i n hi hn =>
    refine ⟨?_, ?_, ?_⟩
    · intro j hj
      rcases update_cases hj with ⟨_, h2⟩ | ⟨_, h2⟩
      · cases h2
      · exact absurd (by rw [hi]; trivial) ((h.unlocked j h2).2 i)
    · intro j k hj hk
      rcases update_cases hj with ⟨_, h2⟩ | ⟨_, h2⟩
      · cases h2
      · exact absurd (by rw [hi]; trivial) ((h.unlocked j h2).2 i)
    · intro j r hj
      rcases update_cases hj with ⟨rfl, h2⟩ | ⟨_, h2⟩
      · cases h2
      · exact h.done j r h2
  | unlock i hi =>
    have ho := hI.owner i (by rw [hi]; trivial)
    have hno : ∀ j, st.pc j ≠ .unlocked := fun j hj => absurd (by rw [hi]; trivial) ((h.unlocked j hj).2 i)
    refine ⟨?_, ?_, ?_⟩
    · intro j hj
      rcases update_cases hj with ⟨rfl, h2⟩ | ⟨_, h2⟩
      · refine ⟨hI.written j hi, fun k hk => ?_⟩
        rcases inside_cases hk with ⟨_, h3⟩ | ⟨hne, h3⟩
        · exact h3
        · have := hI.owner k h3
          rw [ho] at this; cases this; exact hne rfl
      · exact absurd h2 (hno j)
    · intro j k hj hk
      rcases update_cases hj with ⟨h1, _⟩ | ⟨_, h2⟩
      · rcases update_cases hk with ⟨h3, _⟩ | ⟨_, h3⟩
        · rw [h1, h3]
        · exact absurd h3 (hno k)
      · exact absurd h2 (hno j)
    · intro j r hj
      rcases update_cases hj with ⟨rfl, h2⟩ | ⟨_, h2⟩
      · cases h2
      · exact h.done j r h2
  | sum i n hi hn =>
    obtain ⟨h1, h2⟩ := h.unlocked i hi
    refine ⟨?_, ?_, ?_⟩
    · intro j hj
      rcases update_cases hj with ⟨_, h3⟩ | ⟨hne, h3⟩
      · cases h3
      · exact absurd (h.one j i h3 hi) hne
    · intro j k hj hk
      rcases update_cases hj with ⟨_, h3⟩ | ⟨hne, h3⟩
      · cases h3
      · exact absurd (h.one j i h3 hi) hne
    · intro j r hj
      rcases update_cases hj with ⟨rfl, h3⟩ | ⟨_, h3⟩
      · cases h3
        rw [hn] at h1
        cases h1
        rw [dcFallback_digest, dcBuild_hashed hn]
      · exact h.done j r h3

/-- **C60, the part that holds, without overlap**: if no call enters the critical section while another one has left it
without having taken its digest yet, every call returns what it returns alone.  In particular this holds for
calls one after the other, and for a program that takes the digest before it unlocks. -/
theorem C60_no_overlap_partial {hash : Str → Str} {c : DCCfg} {calls : Nat → Str} {s0 st : DState} (h0 : DInit s0)
    (hs : Relation.ReflTransGen (CalmStep hash c calls) s0 st) {i : Nat} {r : Res Str} (hr : st.pc i = .done r) :
    r = dcBuild hash c (calls i) := by
  have key : DInv hash c calls st ∧ CalmInv hash c calls st := by
    clear hr
    induction hs with
    | refl =>
      refine ⟨DInv.init h0, ⟨fun i hi => ?_, fun i j hi => ?_, fun i r hi => ?_⟩⟩ <;>
      · rw [h0.2 i] at hi; cases hi
    | tail _ hst ih =>
      exact ⟨ih.1.step hst.1, ih.2.step ih.1 hst⟩
  exact key.2.done i r hr

/-! ### Two calls that overlap -/

/-- segments of at most three bytes -/
def concCfg : DCCfg := ⟨32000, 3, "_".toList, "_".toList, false, "fallback".toList, 0, 0⟩

/-- thread 0 builds the path of `abcd`, all others that of `efgh` -/
def concCalls (i : Nat) : Str := if i = 0 then "abcd".toList else "efgh".toList

def conc0 : DState := ⟨[], none, fun _ => .ready⟩

/-- thread 0 up to `Unlock` -/
def conc1 : DState := ⟨[] ++ "abcd".toList, none,
  Function.update (Function.update (Function.update (Function.update conc0.pc 0 .locked) 0 .reset) 0 .written) 0
    .unlocked⟩

/-- then thread 1 up to `Unlock` -/
def conc2 : DState := ⟨[] ++ "efgh".toList, none,
  Function.update (Function.update (Function.update (Function.update conc1.pc 1 .locked) 1 .reset) 1 .written) 1
    .unlocked⟩

theorem concHashed0 : dcHashed concCfg (concCalls 0) = some "abcd".toList := by decide
theorem concHashed1 : dcHashed concCfg (concCalls 1) = some "efgh".toList := by decide

theorem conc1_reach : Relation.ReflTransGen (DStep id concCfg concCalls) conc0 conc1 :=
  (((Relation.ReflTransGen.refl.tail (DStep.lock conc0 0 _ rfl concHashed0 rfl)).tail (DStep.reset _ 0 rfl)).tail
    (DStep.write _ 0 _ rfl concHashed0)).tail (DStep.unlock _ 0 rfl)

theorem conc2_reach : Relation.ReflTransGen (DStep id concCfg concCalls) conc0 conc2 :=
  (((conc1_reach.tail (DStep.lock conc1 1 _ rfl concHashed1 rfl)).tail (DStep.reset _ 1 rfl)).tail
    (DStep.write _ 1 _ rfl concHashed1)).tail (DStep.unlock _ 1 rfl)

/-- then thread 0 takes its digest -/
def conc3 : DState := ⟨conc2.acc, conc2.owner, Function.update conc2.pc 0
  (.done (dcFallback (fun _ => conc2.acc) concCfg "abcd".toList))⟩

/-- and thread 1 -/
def conc4 : DState := ⟨conc3.acc, conc3.owner, Function.update conc3.pc 1
  (.done (dcFallback (fun _ => conc3.acc) concCfg "efgh".toList))⟩

theorem conc4_reach : DReach id concCfg concCalls conc4 :=
  ⟨conc0, ⟨rfl, fun _ => rfl⟩, (conc2_reach.tail (DStep.sum conc2 0 _ rfl concHashed0)).tail
    (DStep.sum conc3 1 _ rfl concHashed1)⟩

/-- **C60 fails**: two overlapping calls with different paths return the same path, the second one's. -/
theorem C60_full_fails_collision : ∃ (hash : Str → Str) (c : DCCfg) (calls : Nat → Str) (st : DState) (p : Str),
    DReach hash c calls st ∧ st.pc 0 = .done (.ok p) ∧ st.pc 1 = .done (.ok p) ∧
    dcBuild hash c (calls 0) = .ok "fallback/abc/d".toList ∧ dcBuild hash c (calls 1) = .ok "fallback/efg/h".toList ∧
    p = "fallback/efg/h".toList := by
  have h : dcFallback (fun _ => conc2.acc) concCfg "abcd".toList = .ok "fallback/efg/h".toList := by decide
  have h' : dcFallback (fun _ => conc3.acc) concCfg "efgh".toList = .ok "fallback/efg/h".toList := by decide
  refine ⟨id, concCfg, concCalls, conc4, _, conc4_reach, ?_, ?_, by decide, by decide, rfl⟩
  · show DPc.done (dcFallback (fun _ => conc2.acc) concCfg "abcd".toList) = _
    rw [h]
  · show DPc.done (dcFallback (fun _ => conc3.acc) concCfg "efgh".toList) = _
    rw [h']

theorem C60_full_fails : ¬ C60_full := by
  intro hf
  obtain ⟨hash, c, calls, st, p, h1, h2, _, h4, _, h6⟩ := C60_full_fails_collision
  have := hf hash c calls st 0 _ h1 h2
  rw [h4, h6] at this
  exact absurd this (by decide)

/-- a step of a thread that has begun is calm -/
theorem calm_begun {hash : Str → Str} {c : DCCfg} {calls : Nat → Str} {a : DState} {acc : Str} {o : Option Nat} {i : Nat}
    {x : DPc} (h : DStep hash c calls a ⟨acc, o, Function.update a.pc i x⟩) (hi : a.pc i ≠ .ready) :
    CalmStep hash c calls a ⟨acc, o, Function.update a.pc i x⟩ := by
  refine ⟨h, fun j h1 h2 => ?_⟩
  rcases update_cases h2 with ⟨rfl, _⟩ | ⟨_, h3⟩
  · exact absurd h1 hi
  · rw [h1] at h3; cases h3

/-- the calm schedule: thread 0 alone -/
example : ∃ st r, Relation.ReflTransGen (CalmStep id concCfg concCalls) conc0 st ∧ st.pc 0 = .done r ∧
    r = .ok "fallback/abc/d".toList := by
  refine ⟨⟨conc1.acc, none, Function.update conc1.pc 0 (.done (dcFallback (fun _ => conc1.acc) concCfg "abcd".toList))⟩,
    _, ?_, rfl, by decide⟩
  have h1 : CalmStep id concCfg concCalls conc0 ⟨[], some 0, Function.update conc0.pc 0 .locked⟩ :=
    ⟨DStep.lock conc0 0 _ rfl concHashed0 rfl, fun i _ _ j hj => by cases hj⟩
  exact ((((Relation.ReflTransGen.refl.tail h1).tail
    (calm_begun (DStep.reset _ 0 rfl) (by intro h; cases h))).tail
    (calm_begun (DStep.write _ 0 _ rfl concHashed0) (by intro h; cases h))).tail
    (calm_begun (DStep.unlock _ 0 rfl) (by intro h; cases h))).tail
    (calm_begun (DStep.sum conc1 0 _ rfl concHashed0) (by intro h; cases h))

end Gocfl
