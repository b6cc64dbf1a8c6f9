import Verif.Go.Strings
import Verif.Go.Basic
import Mathlib.Data.List.Perm.Subperm
import Mathlib.Data.List.Nodup

/-!
# Model of the extension manager: exclusion and sorting
(`pkg/extension/NNNN-gocfl-extension-manager.go:197-284`)

`slices.SortFunc` is not stable; its outcome is any permutation in which the ranks do not decrease.  Extensions of a
hook are elements of an arbitrary type with a name.
-/

namespace Gocfl

variable {α : Type} (name : α → Str)

/-- NNNN-gocfl-extension-manager.go:201-209 and 219-227: the last position of the name in the list, 0 if it is not
listed -/
def rankFrom (n : Str) : Nat → Nat → List Str → Nat
  | _, acc, [] => acc
  | i, acc, x :: xs => rankFrom n (i + 1) (if x = n then i else acc) xs

def rank (list : List Str) (n : Str) : Nat := rankFrom n 0 0 list

/-- `slices.SortFunc(l, cmp)` with the comparison of ranks: any outcome -/
def SortedBy (list : List Str) (l r : List α) : Prop :=
  r.Perm l ∧ r.Pairwise (fun a b => rank list (name a) ≤ rank list (name b))

/-- NNNN-gocfl-extension-manager.go:232-250: of the entries in the group only the first stays; `seen` tells whether
there was one already -/
def keepFirst (group : List Str) : Bool → List α → List α
  | _, [] => []
  | seen, e :: l =>
    if name e ∈ group then
      if seen then keepFirst group true l else e :: keepFirst group true l
    else e :: keepFirst group seen l

/-- NNNN-gocfl-extension-manager.go:215-252 `excludeExtensions` -/
def Excluded (group : List Str) (l r : List α) : Prop :=
  ∃ s, SortedBy name group l s ∧ r = keepFirst name group false s

/-- NNNN-gocfl-extension-manager.go:258-262: one group after the other -/
inductive ExcludedAll : List (List Str) → List α → List α → Prop
  | nil (l : List α) : ExcludedAll [] l l
  | cons {g : List Str} {gs : List (List Str)} {l m r : List α} (h : Excluded name g l m) (t : ExcludedAll gs m r) :
    ExcludedAll (g :: gs) l r

/-- NNNN-gocfl-extension-manager.go:254-267 `organize` for one hook -/
def Organized (exclusion : Option (List (List Str))) (sort : Option (List Str)) (l r : List α) : Prop :=
  if l = [] then r = []
  else
    ∃ m, (match exclusion with
          | none => m = l
          | some gs => ExcludedAll name gs l m) ∧
         (match sort with
          | none => r = m
          | some s => SortedBy name s m r)

end Gocfl
