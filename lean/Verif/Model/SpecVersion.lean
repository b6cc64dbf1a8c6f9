import Verif.Model.Root
import Verif.Model.RootCheck

/-!
# Which version of the specification an object is made for

pkg/ocfl/object.go:84-115 `newObject`, pkg/ocfl/inventory.go:57-75 `newInventory`.  The objects and inventories of the versions
differ in nothing else (pkg/ocfl/object1_0.go, object1_1.go, object2_0.go, inventory1_0.go, inventory1_1.go).
-/

namespace Gocfl

/-- pkg/ocfl/object.go:92-114: the version of the object; anything unknown is 1.0 -/
def objectVersion (v : Str) : Str :=
  if v = "1.1".toList then "1.1".toList else if v = "2.0".toList then "2.0".toList else "1.0".toList

/-- pkg/ocfl/inventory.go:58-74 with inventory1_0.go:19, inventory1_1.go:19, inventorytypes.go:13-14: the type of a new inventory -/
def inventoryType (v : Str) : Str :=
  if v = "1.1".toList then "https://ocfl.io/1.1/spec/#inventory".toList else "https://ocfl.io/1.0/spec/#inventory".toList

/-- pkg/ocfl/storagerootbase.go:391-413 `CreateObject` with gocfl/cmd/helper.go:333, pkg/ocfl/objectbase.go:223: an object made in a
storage root of version `v` -/
def versionArgs (a : CreateArgs) (v : Str) : CreateArgs :=
  { a with version := objectVersion v, spec := inventoryType (objectVersion v) }

end Gocfl
