import Verif.Model.JsonRound
import Verif.Model.OneObject
import Verif.Model.Settings

/-!
# Model of the output of `extractmeta`

gocfl/cmd/extractmeta.go:106-190 and the structures of pkg/ocfl/metadata.go, which have no tags: the names of the members are those
of the fields, in their order; maps are sorted by key.  Simplified: the indentation of `MarshalIndent` is three blanks here (`nl`)
and two there; a time is written by `Clock.time`, times `MarshalJSON` refuses (years above 9999) are not modelled; strings are valid
UTF-8.  Values of extensions are of a type `V`; `vt v d` is their text at depth `d`.
-/

namespace Gocfl

section
variable {V : Type}

/-- pkg/ocfl/metadata.go:15-20 -/
def versionMetaText (c : Clock) (d : Nat) (v : VersionMeta) : Bytes :=
  objText d [("Created".toList, qStr (c.time v.created)), ("Message".toList, qStr v.message), ("Name".toList, qStr v.name),
    ("Address".toList, qStr v.address)]

/-- `map[string]any` -/
def anyText (vt : V → Nat → Bytes) (d : Nat) (m : AMap Str V) : Bytes :=
  objText d ((byKey m).map (fun e => (e.1, vt e.2 (d + 1))))

/-- pkg/ocfl/metadata.go:8-13 -/
def fileMetaText (vt : V → Nat → Bytes) (d : Nat) (f : FileMeta V) : Bytes :=
  objText d [("Checksums".toList, objText (d + 1) ((byKey f.checksums).map (fun e => (e.1, qStr e.2)))),
    ("InternalName".toList, arrText (d + 1) (f.internal.map qStr)),
    ("VersionName".toList, dmapText (d + 1) f.versionName),
    ("Extension".toList, anyText vt (d + 1) f.ext)]

/-- pkg/ocfl/metadata.go:22-29; `Extension` is nil if no extension reports about the object -/
def objMetaText (c : Clock) (vt : V → Nat → Bytes) (d : Nat) (m : ObjMeta V) : Bytes :=
  objText d [("ID".toList, qStr m.id), ("DigestAlgorithm".toList, qStr m.alg), ("Head".toList, qStr m.head),
    ("Versions".toList, objText (d + 1) ((byKey m.versions).map (fun e => (e.1, versionMetaText c (d + 2) e.2)))),
    ("Files".toList, objText (d + 1) ((byKey m.files).map (fun e => (e.1, fileMetaText vt (d + 2) e.2)))),
    ("Extension".toList, match m.ext with
      | none => "null".toList.map ch
      | some x => anyText vt (d + 1) x)]

/-- pkg/ocfl/metadata.go:31-33; gocfl/cmd/extractmeta.go:165 -/
def metaText (c : Clock) (vt : V → Nat → Bytes) (M : AMap Str (ObjMeta V)) : Bytes :=
  objText 0 [("Objects".toList, objText 1 ((byKey M).map (fun e => (e.1, objMetaText c vt 2 e.2))))]

/-- What a run of `extractmeta` leaves: standard output, the file written, and whether the program ends with exit status 0. -/
structure MetaRun where
  stdout : Bytes
  file : Option (Str × Bytes)
  zero : Bool

/-- gocfl/cmd/extractmeta.go:106-190, after the options are known.  `M`: what `ExtractMeta` returns, `status`: what `showStatus`
prints, `help`, `fail`: texts printed otherwise. -/
def metaRun (c : Clock) (vt : V → Nat → Bytes) (path id format output : Str) (help : Bytes) (fail : GoErr → Bytes)
    (M : Res (AMap Str (ObjMeta V))) (status : Bytes) : MetaRun :=
  if path ≠ [] ∧ id ≠ [] then ⟨help, none, false⟩
  else if toLower format ≠ "json".toList then ⟨help, none, false⟩
  else
    match M with
    | .error (.panic _) => ⟨[], none, false⟩
    | .error e => ⟨fail e, none, true⟩
    | .ok M =>
      if output ≠ [] then
        ⟨utf8 "metadata extraction done without errors\n".toList ++ status, some (output, metaText c vt M), true⟩
      else
        ⟨metaText c vt M ++ (ch '\n' :: (utf8 "metadata extraction done without errors\n".toList ++ status)), none, true⟩

end

end Gocfl
