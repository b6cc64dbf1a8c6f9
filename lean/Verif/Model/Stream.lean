import Verif.Model.FS
import Mathlib.Logic.Relation
import Mathlib.Logic.Function.Basic

/-!
# Streaming a file to the extensions while it is added

`addReader` copies the source to the content file and into a pipe; a goroutine runs the extension manager's
`StreamObject`, which reads that pipe and distributes the bytes through one buffered pipe per extension; every
extension runs in its own goroutine.  The model is a small-step relation: any goroutine that can go on may go on next.

`io.Pipe` is unbuffered: a `Write` hands its bytes to `Read`s of the other side and returns when all are taken; `pend`
is what is left of the `Write` under way (empty: none).  `checksum.Copy` (not in the repository) is taken to write
every chunk it reads to the pipe and to return when the source ends or when reading or writing the file fails.
-/

namespace Gocfl

/-- What an extension does next: read up to `m + 1` bytes, close the reader it was given, or return from
`StreamObject`. -/
inductive EAct where
  | read (m : Nat)
  | close
  | ret (err : Bool)
  deriving DecidableEq

/-- The behaviour of an extension: its next action, given the results of the actions so far (`none`: end of stream,
or closed). -/
abbrev EProg := List (Option Bytes) → EAct

/-- pkg/extension/NNNN-gocfl-extension-manager.go:583-590: in `StreamObject` of the extension; discarding the rest;
finished -/
inductive EPc where
  | run (hist : List (Option Bytes))
  | drain (err : Bool)
  | done (err : Bool)

/-- pkg/ocfl/objectbase.go:671-694, the goroutine of `addReader`: `checksum.Copy`; inside a `Write` to the pipe; in
`wg.Wait`; finished (with the extensions' error or not); returned because the copy failed -/
inductive MPc where
  | copy
  | blocked
  | wait
  | done (err : Bool)
  | aborted
  deriving DecidableEq

/-- pkg/extension/NNNN-gocfl-extension-manager.go:571-618 `StreamObject`: reading a chunk; writing chunk `c` to the
buffered writers, `p` being what is left for the `i`-th; inside the `Write` to the `i`-th pipe; the `Flush` loop;
inside such a `Write`; the `ForceClose` loop; `wg.Wait`; returned -/
inductive GPc where
  | read
  | write (c p : Bytes) (i : Nat)
  | blocked (c p : Bytes) (i : Nat)
  | flush (i : Nat)
  | flushBlocked (i : Nat)
  | close (i : Nat)
  | wait
  | done (err : Bool)

structure SPipe where
  pend : Bytes
  closed : Bool
  rclosed : Bool

/-- `src`: not yet read from the source; `p0…`: the pipe of `addReader`; `buf`, `failed`: content and sticky error of
the `bufio.Writer`s; `got`: what was read from the extension's pipe, by the extension or by the discarding loop -/
structure SState where
  src : Bytes
  main : MPc
  p0pend : Bytes
  p0closed : Bool
  mgr : GPc
  buf : Nat → Bytes
  failed : Nat → Bool
  pipe : Nat → SPipe
  ext : Nat → EPc
  got : Nat → Bytes

def streamInit (data : Bytes) : SState where
  src := data
  main := .copy
  p0pend := []
  p0closed := false
  mgr := .read
  buf _ := []
  failed _ := false
  pipe _ := ⟨[], false, false⟩
  ext _ := .run []
  got _ := []

open Function (update)

/-- One step of one goroutine; `n` extensions with behaviours `prog`, buffers of size `cap` (1 MB,
pkg/extension/NNNN-gocfl-extension-manager.go:594); `ab`: reading the source or writing the file may fail.  Writing to a `bufio.Writer` (Go, `bufio.Writer.Write`): if the
bytes do not fit, an empty buffer is bypassed, otherwise the buffer is filled and written. -/
inductive SStep (n cap : Nat) (ab : Bool) (prog : Nat → EProg) : SState → SState → Prop
  -- pkg/ocfl/objectbase.go:681
  | mainWrite {s : SState} {x y : Bytes} : s.main = .copy → x ≠ [] → s.src = x ++ y →
      SStep n cap ab prog s { s with src := y, p0pend := x, main := .blocked }
  | mainNext {s : SState} : s.main = .blocked → s.p0pend = [] → SStep n cap ab prog s { s with main := .copy }
  -- pkg/ocfl/objectbase.go:682
  | mainClose {s : SState} : s.main = .copy → s.src = [] → SStep n cap ab prog s { s with p0closed := true, main := .wait }
  -- pkg/ocfl/objectbase.go:682-685: the copy failed; no `wg.Wait`
  | mainAbort {s : SState} : ab = true → s.main = .copy → SStep n cap ab prog s { s with p0closed := true, main := .aborted }
  -- pkg/ocfl/objectbase.go:686-694
  | mainDone {s : SState} {e : Bool} : s.main = .wait → s.mgr = .done e → SStep n cap ab prog s { s with main := .done e }
  -- pkg/extension/NNNN-gocfl-extension-manager.go:597
  | mgrRead {s : SState} {x y : Bytes} : s.mgr = .read → x ≠ [] → s.p0pend = x ++ y →
      SStep n cap ab prog s { s with p0pend := y, mgr := .write x x 0 }
  | mgrEOF {s : SState} : s.mgr = .read → s.p0pend = [] → s.p0closed = true →
      SStep n cap ab prog s { s with mgr := .flush 0 }
  | mgrNext {s : SState} {c p : Bytes} {i : Nat} : s.mgr = .write c p i → ¬ i < n →
      SStep n cap ab prog s { s with mgr := .read }
  | mgrBuffer {s : SState} {c p : Bytes} {i : Nat} : s.mgr = .write c p i → i < n → p.length ≤ cap - (s.buf i).length →
      SStep n cap ab prog s { s with buf := update s.buf i (s.buf i ++ p), mgr := .write c c (i + 1) }
  | mgrDirect {s : SState} {c p : Bytes} {i : Nat} : s.mgr = .write c p i → i < n →
      ¬ p.length ≤ cap - (s.buf i).length → s.buf i = [] →
      SStep n cap ab prog s { s with pipe := update s.pipe i { s.pipe i with pend := p }, mgr := .blocked c [] i }
  | mgrFill {s : SState} {c p : Bytes} {i : Nat} : s.mgr = .write c p i → i < n →
      ¬ p.length ≤ cap - (s.buf i).length → s.buf i ≠ [] →
      SStep n cap ab prog s { s with
        pipe := update s.pipe i { s.pipe i with pend := s.buf i ++ p.take (cap - (s.buf i).length) }
        buf := update s.buf i []
        mgr := .blocked c (p.drop (cap - (s.buf i).length)) i }
  | mgrUnblock {s : SState} {c p : Bytes} {i : Nat} : s.mgr = .blocked c p i → (s.pipe i).pend = [] →
      SStep n cap ab prog s { s with mgr := .write c p i }
  -- the reader was closed: the `Write` fails, the error sticks to the buffered writer and ends the copy
  | mgrBroken {s : SState} {c p : Bytes} {i : Nat} : s.mgr = .blocked c p i → (s.pipe i).pend ≠ [] →
      (s.pipe i).rclosed = true →
      SStep n cap ab prog s { s with
        pipe := update s.pipe i { s.pipe i with pend := [] }
        failed := update s.failed i true
        mgr := .flush 0 }
  -- pkg/extension/NNNN-gocfl-extension-manager.go:598-603
  | mgrFlushSkip {s : SState} {i : Nat} : s.mgr = .flush i → i < n → s.failed i = false → s.buf i = [] →
      SStep n cap ab prog s { s with mgr := .flush (i + 1) }
  | mgrFlush {s : SState} {i : Nat} : s.mgr = .flush i → i < n → s.failed i = false → s.buf i ≠ [] →
      SStep n cap ab prog s { s with
        pipe := update s.pipe i { s.pipe i with pend := s.buf i }
        buf := update s.buf i []
        mgr := .flushBlocked i }
  | mgrFlushed {s : SState} {i : Nat} : s.mgr = .flushBlocked i → (s.pipe i).pend = [] →
      SStep n cap ab prog s { s with mgr := .flush (i + 1) }
  -- returns at once: the pipes are not closed, nobody is waited for
  | mgrFlushBroken {s : SState} {i : Nat} : s.mgr = .flushBlocked i → (s.pipe i).pend ≠ [] → (s.pipe i).rclosed = true →
      SStep n cap ab prog s { s with pipe := update s.pipe i { s.pipe i with pend := [] }, mgr := .done true }
  | mgrFlushFailed {s : SState} {i : Nat} : s.mgr = .flush i → i < n → s.failed i = true →
      SStep n cap ab prog s { s with mgr := .done true }
  | mgrFlushEnd {s : SState} {i : Nat} : s.mgr = .flush i → ¬ i < n → SStep n cap ab prog s { s with mgr := .close 0 }
  -- pkg/extension/NNNN-gocfl-extension-manager.go:604-606
  | mgrClose {s : SState} {i : Nat} : s.mgr = .close i → i < n →
      SStep n cap ab prog s { s with pipe := update s.pipe i { s.pipe i with closed := true }, mgr := .close (i + 1) }
  | mgrCloseEnd {s : SState} {i : Nat} : s.mgr = .close i → ¬ i < n → SStep n cap ab prog s { s with mgr := .wait }
  -- pkg/extension/NNNN-gocfl-extension-manager.go:611-617
  | mgrDone {s : SState} {e : Bool} : s.mgr = .wait → (∀ i, i < n → ∃ e, s.ext i = .done e) →
      (e = true ↔ ∃ i, i < n ∧ s.ext i = .done true) → SStep n cap ab prog s { s with mgr := .done e }
  -- pkg/extension/NNNN-gocfl-extension-manager.go:585
  | extRet {s : SState} {i : Nat} {h : List (Option Bytes)} {e : Bool} : i < n → s.ext i = .run h → prog i h = .ret e →
      SStep n cap ab prog s { s with ext := update s.ext i (.drain e) }
  | extRead {s : SState} {i m : Nat} {h : List (Option Bytes)} : i < n → s.ext i = .run h → prog i h = .read m →
      (s.pipe i).rclosed = false → (s.pipe i).pend ≠ [] →
      SStep n cap ab prog s { s with
        got := update s.got i (s.got i ++ (s.pipe i).pend.take (m + 1))
        pipe := update s.pipe i { s.pipe i with pend := (s.pipe i).pend.drop (m + 1) }
        ext := update s.ext i (.run (h ++ [some ((s.pipe i).pend.take (m + 1))])) }
  | extEOF {s : SState} {i m : Nat} {h : List (Option Bytes)} : i < n → s.ext i = .run h → prog i h = .read m →
      ((s.pipe i).rclosed = true ∨ ((s.pipe i).pend = [] ∧ (s.pipe i).closed = true)) →
      SStep n cap ab prog s { s with ext := update s.ext i (.run (h ++ [none])) }
  | extClose {s : SState} {i : Nat} {h : List (Option Bytes)} : i < n → s.ext i = .run h → prog i h = .close →
      SStep n cap ab prog s { s with
        pipe := update s.pipe i { s.pipe i with rclosed := true }
        ext := update s.ext i (.run (h ++ [none])) }
  -- pkg/extension/NNNN-gocfl-extension-manager.go:588-589
  | extDrain {s : SState} {i : Nat} {e : Bool} {x y : Bytes} : i < n → s.ext i = .drain e →
      (s.pipe i).rclosed = false → x ≠ [] → (s.pipe i).pend = x ++ y →
      SStep n cap ab prog s { s with
        got := update s.got i (s.got i ++ x)
        pipe := update s.pipe i { s.pipe i with pend := y } }
  | extDone {s : SState} {i : Nat} {e : Bool} : i < n → s.ext i = .drain e →
      ((s.pipe i).rclosed = true ∨ ((s.pipe i).pend = [] ∧ (s.pipe i).closed = true)) →
      SStep n cap ab prog s { s with ext := update s.ext i (.done e) }

/-- reachable states of adding a file with content `data` -/
def SReach (n cap : Nat) (ab : Bool) (prog : Nat → EProg) (data : Bytes) (s : SState) : Prop :=
  Relation.ReflTransGen (SStep n cap ab prog) (streamInit data) s

end Gocfl
