import Verif.Model.MetaFile

/-!
# Setting up the metafile extension

`NewMetaFileFS`, `NewMetaFile` and `WriteConfig` (pkg/extension/NNNN-metafile.go:46-96, 154-173): the configuration and the
schema, read from a folder of extensions and written to the folder of the extension in the object.
-/

namespace Gocfl

/-- `MetaFileConfig` (pkg/extension/NNNN-metafile.go:98-105) with the name of the extension and the schema -/
structure MetaSetup where
  name : Str
  cfg : MetaFileCfg
  schema : Str
  schemaUrl : Str
  deriving DecidableEq, Repr

/-- `dec`, `enc`: `json.Unmarshal` and the JSON encoder for `MetaFileConfig`; `compiles`: `jsonschema.CompileString` of an
address and a schema -/
structure MetaLoader where
  dec : Bytes → Option MetaSetup
  enc : MetaSetup → Bytes
  compiles : Str → Bytes → Bool

/-- pkg/extension/NNNN-metafile.go:63-80: the schema from the folder `dir`, or from its address.  `web` is the body of an
answer with status 200. -/
def fetchSchema (web : Str → Option Bytes) (fs : FS) (dir : Str) (s : MetaSetup) : Res (MetaSetup × Bytes) :=
  if s.schema ≠ [] then
    match mget fs (dir ++ '/' :: s.schema) with
    | none => .error (.error "cannot read metadata schema")
    | some b => .ok (s, b)
  else
    match web s.schemaUrl with
    | none => .error (.error "cannot load metadata schema")
    | some b => .ok ({ s with schema := "schema.json".toList }, b)

/-- pkg/extension/NNNN-metafile.go:46-96 `NewMetaFileFS` and `NewMetaFile` -/
def newMetaFile (L : MetaLoader) (web : Str → Option Bytes) (fs : FS) (dir : Str) : Res (MetaSetup × Bytes) :=
  match mget fs (dir ++ '/' :: "config.json".toList) with
  | none => .error (.error "cannot read config.json")
  | some b =>
    match L.dec b with
    | none => .error (.error "cannot unmarshal")
    | some s =>
      if s.cfg.metaName = "config.json".toList then .error (.error "config.json is not allowed for field name")
      else if s.schema = "config.json".toList then .error (.error "config.json is not allowed for field schema")
      else
        match fetchSchema web fs dir s with
        | .error e => .error e
        | .ok r =>
          if r.1.name ≠ "NNNN-metafile".toList then .error (.error "invalid extension name")
          else if L.compiles r.1.schemaUrl r.2 then .ok r
          else .error (.error "cannot compile schema")

/-- pkg/extension/NNNN-metafile.go:154-173 `WriteConfig` -/
def writeMetaConfig (L : MetaLoader) (s : MetaSetup) (schema : Bytes) (dir : Str) : List FsOp :=
  writeFile (dir ++ '/' :: s.schema) schema ++ writeFile (dir ++ '/' :: "config.json".toList) (L.enc s)

end Gocfl
