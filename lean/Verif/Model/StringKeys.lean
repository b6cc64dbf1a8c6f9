import Verif.Go.Strings

/-!
# Model of `toStringKeys`

pkg/extension/NNNN-metafile.go:175-204, 279-310: metadata in YAML or TOML is made ready for JSON.
-/

namespace Gocfl

/-- What the decoders give: a map with any keys (`map[interface{}]interface{}`, what yaml.v2 makes of a mapping; keys that are not
strings are of a type `K`), a map with string keys (`map[string]interface{}`), a list (`[]interface{}`), anything else -/
inductive GoVal (K V : Type) where
  | leaf (v : V)
  | anyMap (l : List (Sum Str K × GoVal K V))
  | strMap (l : List (Str × GoVal K V))
  | list (l : List (GoVal K V))

variable {K V : Type}

mutual
/-- pkg/extension/NNNN-metafile.go:175-204.  Only maps with any keys and lists are looked into. -/
def toStringKeys : GoVal K V → Res (GoVal K V)
  | .anyMap l => stringKeyed l >>= fun m => .ok (.strMap m)
  | .list l => stringKeyedList l >>= fun m => .ok (.list m)
  | .leaf v => .ok (.leaf v)
  | .strMap l => .ok (.strMap l)

/-- 180-188: the entries of a map, in the order of the traversal; the keys of a map are distinct -/
def stringKeyed : List (Sum Str K × GoVal K V) → Res (List (Str × GoVal K V))
  | [] => .ok []
  | (.inr _, _) :: _ => .error (.error "found non-string key")
  | (.inl k, v) :: l => toStringKeys v >>= fun v' => stringKeyed l >>= fun l' => .ok ((k, v') :: l')

/-- 191-197 -/
def stringKeyedList : List (GoVal K V) → Res (List (GoVal K V))
  | [] => .ok []
  | v :: l => toStringKeys v >>= fun v' => stringKeyedList l >>= fun l' => .ok (v' :: l')
end

mutual
/-- `json.MarshalIndent` (pkg/extension/NNNN-metafile.go:307) refuses maps with any keys; everything else that the decoders give is
written (`V`: numbers, strings, booleans, times; infinities and NaN are refused by the encoder and are left out here) -/
def jsonable : GoVal K V → Bool
  | .anyMap _ => false
  | .list l => jsonableList l
  | .leaf _ => true
  | .strMap l => jsonableMap l

def jsonableMap : List (Str × GoVal K V) → Bool
  | [] => true
  | (_, v) :: l => jsonable v && jsonableMap l

def jsonableList : List (GoVal K V) → Bool
  | [] => true
  | v :: l => jsonable v && jsonableList l
end

/-- pkg/extension/NNNN-metafile.go:279-310 without the schema: the value written -/
def metaValue (v : GoVal K V) : Res (GoVal K V) :=
  toStringKeys v >>= fun j => if jsonable j then .ok j else .error (.error "cannot marshal info json")

end Gocfl
