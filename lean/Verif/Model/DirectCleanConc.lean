import Verif.Model.DirectClean
import Mathlib.Logic.Relation
import Mathlib.Logic.Function.Basic

/-!
# Model of concurrent calls of the direct-clean layout (`pkg/extension/NNNN-direct-clean-path-layout.go:203-288`)

One extension object with one hash object and one mutex; any number of threads, thread `i` builds the path of `calls i`.
`Reset`, `Write` and `Sum` of the hash are one step each.  Simplification: a data race inside one of these steps (`Sum`
copies the state while another thread writes) is not modelled, so the real behaviours are more.
-/

namespace Gocfl

/-- the string that is hashed, `none` if the path needs no fallback -/
def dcHashed (c : DCCfg) (fname : Str) : Option Str :=
  match dcSegs c (splitOn '/' fname) with
  | none => some fname
  | some segs => if (byteLen (joinWith '/' segs) : Int) > c.maxPathname then some (joinWith '/' segs) else none

/-- where a thread is -/
inductive DPc where
  | ready
  | locked
  | reset
  | written
  | unlocked
  | done (r : Res Str)

/-- the hash object (what was written since `Reset`), the holder of the mutex, the threads -/
structure DState where
  acc : Str
  owner : Option Nat
  pc : Nat → DPc

/-- One step of thread `i`.  NNNN-direct-clean-path-layout.go:205 `Lock`, 208 `Reset`, 210 `Write`, 214 `Unlock`,
217 `Sum` (after unlocking) and the rest of `fallback`. -/
inductive DStep (hash : Str → Str) (c : DCCfg) (calls : Nat → Str) : DState → DState → Prop
  | plain (st : DState) (i : Nat) : st.pc i = .ready → dcHashed c (calls i) = none →
      DStep hash c calls st { st with pc := Function.update st.pc i (.done (dcBuild hash c (calls i))) }
  | lock (st : DState) (i : Nat) (n : Str) : st.pc i = .ready → dcHashed c (calls i) = some n → st.owner = none →
      DStep hash c calls st { st with owner := some i, pc := Function.update st.pc i .locked }
  | reset (st : DState) (i : Nat) : st.pc i = .locked →
      DStep hash c calls st { st with acc := [], pc := Function.update st.pc i .reset }
  | write (st : DState) (i : Nat) (n : Str) : st.pc i = .reset → dcHashed c (calls i) = some n →
      DStep hash c calls st { st with acc := st.acc ++ n, pc := Function.update st.pc i .written }
  | unlock (st : DState) (i : Nat) : st.pc i = .written →
      DStep hash c calls st { st with owner := none, pc := Function.update st.pc i .unlocked }
  | sum (st : DState) (i : Nat) (n : Str) : st.pc i = .unlocked → dcHashed c (calls i) = some n →
      DStep hash c calls st
        { st with pc := Function.update st.pc i (.done (dcFallback (fun _ => hash st.acc) c n)) }

/-- no call has begun; the hash object may have been used before -/
def DInit (st : DState) : Prop := st.owner = none ∧ ∀ i, st.pc i = .ready

/-- the states reached by some interleaving -/
def DReach (hash : Str → Str) (c : DCCfg) (calls : Nat → Str) (st : DState) : Prop :=
  ∃ s0, DInit s0 ∧ Relation.ReflTransGen (DStep hash c calls) s0 st

end Gocfl
