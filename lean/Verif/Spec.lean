import Verif.Model.Inventory

/-!
# Specification vocabulary

Small definitions in which the properties are stated.  They speak about what is recorded in an
inventory, not about how the operations compute it.
-/

namespace Gocfl

/-- Version `v` of the inventory has the logical path `p` with content digest `d`. -/
def HasFile (inv : Inv) (v p d : Str) : Prop :=
  ∃ ver ps, (v, ver) ∈ inv.versions ∧ (d, ps) ∈ ver.state ∧ p ∈ ps

/-- Version `v` of the inventory has the logical path `p` (with some digest). -/
def HasPath (inv : Inv) (v p : Str) : Prop := ∃ d, HasFile inv v p d

/-- The versions recorded are exactly those numbered `1..n` (each once, in any map order), named
according to the inventory's padding, and the head is version `n` (no head if there is no version). -/
def GapFree (inv : Inv) (n : Nat) : Prop :=
  (mkeys inv.versions).Perm
    ((List.range n).map (fun k => verName inv.paddingLength ((k + 1 : Nat) : Int))) ∧
  inv.head = if n = 0 then [] else verName inv.paddingLength (n : Int)

/-- No version state lists a digest twice as key (true of every decoded JSON object / Go map). -/
def MapKeysOk (inv : Inv) : Prop :=
  ∀ v ver, (v, ver) ∈ inv.versions → (mkeys ver.state).Nodup

/-- In no version does a logical path occur more than once, be it under one digest or several. -/
def OneDigestPerPath (inv : Inv) : Prop :=
  ∀ v ver, (v, ver) ∈ inv.versions → (ver.state.flatMap (·.2)).Nodup

/-- Every digest used by a version has at least one content path in the manifest. -/
def NoDangling (inv : Inv) : Prop :=
  ∀ v p d, HasFile inv v p d → ∃ m, (d, m) ∈ inv.manifest ∧ m ≠ []

/-- A condition that holds for every operation of a history at the moment it is executed. -/
def Along (P : Inv → Op → Prop) : Inv → List Op → Prop
  | _, [] => True
  | inv, op :: ops => P inv op ∧ ∀ inv', step inv op = .ok inv' → Along P inv' ops

end Gocfl
