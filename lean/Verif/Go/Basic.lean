import Mathlib.Data.List.Basic
import Mathlib.Data.List.Nodup
import Mathlib.Data.List.Perm.Basic

/-!
# Go primitives used by the model

Strings, maps, errors.  These model Go language/standard library behaviour, not gocfl code.
-/

namespace Gocfl

/-- Go `string` holding valid UTF-8, as its sequence of code points (see DESIGN.md, Conventions). -/
abbrev Str := List Char

/-- A returned Go `error`, or a run-time panic. -/
inductive GoErr where
  | error (msg : String)
  | panic (msg : String)
  deriving DecidableEq, Repr

abbrev Res (α : Type) := Except GoErr α

/-- Bind of `Except`, in a form convenient for `simp`. -/
theorem res_bind_ok {α β : Type} (a : α) (f : α → Res β) : ((.ok a : Res α) >>= f) = f a := rfl
theorem res_bind_err {α β : Type} (e : GoErr) (f : α → Res β) :
    ((.error e : Res α) >>= f) = .error e := rfl

theorem res_bind_eq_ok {α β : Type} {x : Res α} {f : α → Res β} {b : β} :
    (x >>= f) = .ok b ↔ ∃ a, x = .ok a ∧ f a = .ok b := by
  cases x with
  | error e => simp [res_bind_err]
  | ok a => simp [res_bind_ok]

/-! ## Maps: Go `map[K]V` as association list; the list order is the iteration order. -/

/-- Go `map[K]V`. -/
abbrev AMap (K V : Type) := List (K × V)

section AMap
variable {K V : Type} [DecidableEq K]

/-- `v, ok := m[k]` -/
def mget : AMap K V → K → Option V
  | [], _ => none
  | (k', v) :: m, k => if k' = k then some v else mget m k

/-- `m[k] = v` -/
def mset : AMap K V → K → V → AMap K V
  | [], k, v => [(k, v)]
  | (k', v') :: m, k, v => if k' = k then (k, v) :: m else (k', v') :: mset m k v

/-- `delete(m, k)` -/
def mdel (m : AMap K V) (k : K) : AMap K V := m.filter (fun e => !decide (e.1 = k))

/-- the keys, in iteration order -/
def mkeys (m : AMap K V) : List K := m.map (·.1)

omit [DecidableEq K] in
@[simp] theorem mkeys_nil : mkeys ([] : AMap K V) = [] := rfl
omit [DecidableEq K] in
@[simp] theorem mkeys_cons (e : K × V) (m : AMap K V) : mkeys (e :: m) = e.1 :: mkeys m := rfl

@[simp] theorem mget_nil (k : K) : mget ([] : AMap K V) k = none := rfl

theorem mget_cons (e : K × V) (m : AMap K V) (k : K) :
    mget (e :: m) k = if e.1 = k then some e.2 else mget m k := rfl

theorem mget_mset (m : AMap K V) (k k' : K) (v : V) :
    mget (mset m k v) k' = if k = k' then some v else mget m k' := by
  induction m with
  | nil => simp [mset, mget]
  | cons e m ih =>
    obtain ⟨a, b⟩ := e
    by_cases h : a = k
    · subst h; simp only [mset, if_true, mget_cons]
      split <;> simp_all
    · simp only [mset, h, if_false, mget_cons, ih]
      by_cases h2 : a = k'
      · subst h2; simp [Ne.symm h]
      · simp [h2]

@[simp] theorem mget_mset_self (m : AMap K V) (k : K) (v : V) : mget (mset m k v) k = some v := by
  simp [mget_mset]

theorem mget_mset_ne (m : AMap K V) {k k' : K} (h : k ≠ k') (v : V) :
    mget (mset m k v) k' = mget m k' := by
  simp [mget_mset, h]

theorem mget_eq_none_iff {m : AMap K V} {k : K} : mget m k = none ↔ k ∉ mkeys m := by
  induction m with
  | nil => simp
  | cons e m ih =>
    rw [mget_cons]
    split
    · simp_all
    · simp [ih, Ne.symm (by assumption)]

theorem mget_isSome_iff {m : AMap K V} {k : K} : (mget m k).isSome ↔ k ∈ mkeys m := by
  have h := @mget_eq_none_iff _ _ _ m k
  cases hg : mget m k with
  | none => simp [h.1 hg]
  | some v =>
    simp only [Option.isSome_some, true_iff]
    by_contra hc
    rw [h.2 hc] at hg; exact absurd hg (by simp)

theorem mem_of_mget {m : AMap K V} {k : K} {v : V} (h : mget m k = some v) : (k, v) ∈ m := by
  induction m with
  | nil => simp at h
  | cons e m ih =>
    rw [mget_cons] at h
    split at h
    · rename_i hk; cases h; subst hk; simp
    · exact List.mem_cons_of_mem _ (ih h)

omit [DecidableEq K] in
theorem mem_mkeys_of_mem {m : AMap K V} {k : K} {v : V} (h : (k, v) ∈ m) : k ∈ mkeys m :=
  List.mem_map.2 ⟨(k, v), h, rfl⟩

theorem mget_of_mem {m : AMap K V} (hn : (mkeys m).Nodup) {k : K} {v : V} (h : (k, v) ∈ m) :
    mget m k = some v := by
  induction m with
  | nil => simp at h
  | cons e m ih =>
    rw [mkeys_cons, List.nodup_cons] at hn
    rcases List.mem_cons.1 h with h | h
    · subst h; simp [mget_cons]
    · rw [mget_cons, if_neg, ih hn.2 h]
      intro he; exact hn.1 (he ▸ mem_mkeys_of_mem h)

theorem mem_iff_mget {m : AMap K V} (hn : (mkeys m).Nodup) {k : K} {v : V} :
    (k, v) ∈ m ↔ mget m k = some v := ⟨mget_of_mem hn, mem_of_mget⟩

theorem mkeys_mset (m : AMap K V) (k : K) (v : V) :
    mkeys (mset m k v) = if k ∈ mkeys m then mkeys m else mkeys m ++ [k] := by
  induction m with
  | nil => simp [mset]
  | cons e m ih =>
    obtain ⟨a, b⟩ := e
    by_cases h : a = k
    · subst h; simp [mset]
    · simp only [mset, h, if_false, mkeys_cons, ih, List.mem_cons, Ne.symm h, false_or]
      split <;> simp

theorem mkeys_mset_nodup {m : AMap K V} (hn : (mkeys m).Nodup) (k : K) (v : V) :
    (mkeys (mset m k v)).Nodup := by
  rw [mkeys_mset]
  split
  · exact hn
  · rename_i h
    exact List.nodup_append.2 ⟨hn, by simp, by
      intro a ha b hb; simp at hb; subst hb; intro e; subst e; exact h ha⟩

theorem mset_fresh {m : AMap K V} {k : K} (h : k ∉ mkeys m) (v : V) :
    mset m k v = m ++ [(k, v)] := by
  induction m with
  | nil => rfl
  | cons e m ih =>
    obtain ⟨a, b⟩ := e
    simp only [mkeys_cons, List.mem_cons, not_or] at h
    simp [mset, Ne.symm h.1, ih h.2]

/-- Membership after `m[k] = v` in a map without duplicate keys. -/
theorem mem_mset_iff {m : AMap K V} (hn : (mkeys m).Nodup) {k : K} {v : V} {e : K × V} :
    e ∈ mset m k v ↔ (e = (k, v)) ∨ (e.1 ≠ k ∧ e ∈ m) := by
  obtain ⟨a, b⟩ := e
  rw [mem_iff_mget (mkeys_mset_nodup hn k v), mget_mset, Prod.mk.injEq, mem_iff_mget hn]
  by_cases h : k = a
  · subst h; simp [eq_comm]
  · simp [h, Ne.symm h]

/-- Values of a map do not depend on the iteration order. -/
theorem mget_perm {m m' : AMap K V} (hp : m.Perm m') (hn : (mkeys m).Nodup) (k : K) :
    mget m k = mget m' k := by
  have hn' : (mkeys m').Nodup := (hp.map _).nodup_iff.1 hn
  cases h : mget m k with
  | none =>
    symm; rw [mget_eq_none_iff] at h ⊢
    intro hk; exact h ((hp.map (·.1)).mem_iff.2 hk)
  | some v =>
    symm; exact mget_of_mem hn' (hp.mem_iff.1 (mem_of_mget h))

theorem mdel_nodup {m : AMap K V} (hn : (mkeys m).Nodup) (k : K) : (mkeys (mdel m k)).Nodup :=
  hn.sublist (List.Sublist.map _ List.filter_sublist)

theorem mget_mdel (m : AMap K V) (k k' : K) :
    mget (mdel m k) k' = if k = k' then none else mget m k' := by
  induction m with
  | nil => simp [mdel]
  | cons e m ih =>
    obtain ⟨a, b⟩ := e
    rw [mget_cons]
    by_cases h : a = k
    · subst h
      have : mdel ((a, b) :: m) a = mdel m a := by simp [mdel]
      rw [this, ih]
      by_cases h2 : a = k' <;> simp [h2]
    · have : mdel ((a, b) :: m) k = (a, b) :: mdel m k := by simp [mdel, h]
      rw [this, mget_cons, ih]
      by_cases h2 : a = k'
      · subst h2; simp [Ne.symm h]
      · simp [h2]

end AMap

end Gocfl
