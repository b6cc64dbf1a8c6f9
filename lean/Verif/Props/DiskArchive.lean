import Verif.Props.AddedFile

/-! # C191: the verdict about an object on different storages

Reading a file that is missing gives `fs.ErrNotExist` itself on some file systems (`plain = true`) and an error around it on
others, among them local disks (`plain = false`). -/

namespace Gocfl

/-- every version has content and an inventory of its own -/
def Furnished (fs : FS) (inv : Inv) : Prop :=
  ∀ v ∈ mkeys inv.versions, (∃ t b, mget fs (v ++ '/' :: inv.contentDir ++ t) = some b) ∧ mget fs (v ++ "/inventory.json".toList) ≠ none

/-- What validates on a local disk validates everywhere: the errors about missing files only add conditions. -/
theorem C191_from_disk {w : World} {env env' : Env} {plain : Bool} {blank blank' : Inv} {fs fs' : FS} {folder folder' : Str} (hlow : LowerHash w)
    (hs : SameButIgnored (subFS fs folder) (subFS fs' folder'))
    (h : ∃ F, checkFolder w env false blank fs folder = .ok F ∧ NoErrors F) :
    ∃ F, checkFolder w env' plain blank' fs' folder' = .ok F ∧ NoErrors F := by
  rw [C184_ignored (env' := env') (blank' := blank') hlow hs] at h
  rw [C184_accepted_iff hlow] at h ⊢
  obtain ⟨r, O⟩ := h
  exact ⟨r, { O with
    content := fun _ => O.content rfl
    inventory := fun v hv _ => O.inventory v hv (.inl rfl) }⟩

/-- The other way: an object that validates in an archive validates on a local disk exactly if every version has content and an
inventory. -/
theorem C191_to_disk_iff {w : World} {env env' : Env} {blank blank' : Inv} {fs fs' : FS} {folder folder' : Str} {r : RawInv} (hlow : LowerHash w)
    (hs : SameButIgnored (subFS fs folder) (subFS fs' folder'))
    (h : ∃ F, checkFolder w env true blank fs folder = .ok F ∧ NoErrors F) (hr : StoredInv w (subFS fs folder) r) :
    (∃ F, checkFolder w env' false blank' fs' folder' = .ok F ∧ NoErrors F) ↔ Furnished (subFS fs folder) r.inv := by
  rw [← C184_ignored (env := env) (blank := blank) hlow hs, C184_accepted_iff hlow]
  rw [C184_accepted_iff hlow] at h
  obtain ⟨r0, O⟩ := h
  cases stored_unique O.root.1 hr
  constructor
  · rintro ⟨r', O'⟩ v hv
    cases stored_unique O'.root.1 hr
    exact ⟨O'.content rfl v hv, O'.inventory v hv (.inl rfl)⟩
  · intro hf
    exact ⟨_, { O with
      content := fun _ v hv => (hf v hv).1
      inventory := fun v hv _ => (hf v hv).2 }⟩

/-- The full claim: moving an object between storages does not change the verdict. -/
def C191_full : Prop := ∀ (w : World) (env : Env) (blank : Inv) (fs : FS) (folder : Str), LowerHash w →
  ((∃ F, checkFolder w env true blank fs folder = .ok F ∧ NoErrors F) ↔ ∃ F, checkFolder w env false blank fs folder = .ok F ∧ NoErrors F)

/-! ## The example: the second version only renames a file -/

def dskInv : Inv :=
  { ockInv with
    head := "v2".toList
    versions := ockInv.versions ++ [("v2".toList, ⟨"t".toList, "m".toList, "u".toList, "mailto:u@x".toList, [("d1".toList, ["b".toList])]⟩)] }

def dskWorld : World :=
  { ockWorld with dec := fun b => if b = [9] then some { inv := ockInv, vmeta := [] } else if b = [8] then some { inv := dskInv, vmeta := [] } else none }

def dskFS : FS :=
  [("o/0=ocfl_object_1.1".toList, asBytes "ocfl_object_1.1\n".toList),
   ("o/inventory.json".toList, [8]), ("o/inventory.json.sha512".toList, asBytes "ad inventory.json".toList),
   ("o/v1/inventory.json".toList, [9]), ("o/v1/inventory.json.sha512".toList, asBytes "ad inventory.json".toList),
   ("o/v1/content/a".toList, [1]),
   ("o/v2/inventory.json".toList, [8]), ("o/v2/inventory.json.sha512".toList, asBytes "ad inventory.json".toList)]

theorem dsk_lower : LowerHash dskWorld := ock_lower

example : ∃ F, checkFolder ockWorld exEnv true ockInv ockFS "o".toList = .ok F ∧ NoErrors F :=
  C191_from_disk (env := exEnv) (blank := ockInv) ock_lower ⟨rfl, fun _ _ => rfl⟩ ⟨[], ock_accepted, by simp [NoErrors]⟩

theorem dsk_stored : StoredInv dskWorld (subFS dskFS "o".toList) { inv := dskInv, vmeta := [] } := by
  obtain ⟨r, O⟩ := (C184_accepted_iff (plain := true) (env := exEnv) (blank := ockInv) (fs := dskFS) (folder := "o".toList) dsk_lower).1 (checked_of (by decide))
  obtain ⟨b, sb, hash, hb, hr, h⟩ := O.root.1
  have : mget (subFS dskFS "o".toList) "inventory.json".toList = some [8] := by decide
  cases this.symm.trans hb
  cases hr
  exact ⟨_, sb, hash, hb, rfl, h⟩

/-- the second version has no content -/
example : ¬ Furnished (subFS dskFS "o".toList) dskInv := by
  intro h
  have := (C191_to_disk_iff (env := exEnv) (env' := exEnv) (blank := ockInv) (blank' := ockInv) (fs' := dskFS) (folder' := "o".toList) dsk_lower
    ⟨rfl, fun _ _ => rfl⟩ (checked_of (by decide)) dsk_stored).2 h
  rw [show checkFolder dskWorld exEnv false ockInv dskFS "o".toList = .error (.error "cannot stat") by decide] at this
  obtain ⟨F, h, _⟩ := this
  cases h

/-- C191 is violated: an object whose second version only renames a file validates in an archive and not on a local disk. -/
theorem C191_full_fails : ¬ C191_full := by
  intro hf
  have h := (hf dskWorld exEnv ockInv dskFS "o".toList dsk_lower).1 (checked_of (by decide))
  revert h
  have : checkFolder dskWorld exEnv false ockInv dskFS "o".toList = .error (.error "cannot stat") := by decide
  rw [this]
  rintro ⟨F, h, _⟩
  cases h

end Gocfl
