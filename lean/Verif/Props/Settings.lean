import Verif.Model.Settings
import Verif.Model.Mets

/-!
# C140–C145: command line and configuration file
-/

namespace Gocfl

/-! ## What is specified: the options of the commands and the settings they stand for -/

/-- The options that are texts, with the settings they stand for (`docs/*.md`, comments in `config/default.toml`). -/
def textOptions : List (Command × String × Setting) :=
  [(.init, "default-storageroot-extensions", .initExtensions), (.init, "ocfl-version", .initVersion), (.init, "digest", .initDigest),
   (.create, "default-storageroot-extensions", .initExtensions), (.create, "ocfl-version", .initVersion),
   (.create, "digest", .initDigest), (.create, "digest", .addDigest), (.create, "default-object-extensions", .addExtensions),
   (.create, "message", .addMessage), (.create, "user-name", .addUserName), (.create, "user-address", .addUserAddress),
   (.add, "default-object-extensions", .addExtensions), (.add, "message", .addMessage), (.add, "user-name", .addUserName),
   (.add, "user-address", .addUserAddress), (.add, "digest", .addDigest),
   (.update, "message", .updMessage), (.update, "user-name", .updUserName), (.update, "user-address", .updUserAddress),
   (.update, "digest", .updDigest),
   (.extract, "object-path", .extractPath), (.extract, "object-id", .extractId), (.extract, "version", .extractVersion),
   (.extract, "area", .extractArea),
   (.extractmeta, "object-path", .metaPath), (.extractmeta, "object-id", .metaId), (.extractmeta, "version", .metaVersion),
   (.extractmeta, "format", .metaFormat), (.extractmeta, "output", .metaOutput),
   (.stat, "object-path", .statPath), (.stat, "object-id", .statId),
   (.validate, "object-path", .validatePath), (.validate, "object-id", .validateId),
   (.display, "display-addr", .dispAddr), (.display, "display-external-addr", .dispExternal),
   (.display, "display-templates", .dispTemplates), (.display, "display-tls-cert", .dispCert), (.display, "display-tls-key", .dispKey)]

/-- the options every command has -/
def commonOptions : List (String × Setting) :=
  [("log-file", .logFile), ("log-level", .logLevel), ("s3-endpoint", .s3Endpoint), ("s3-region", .s3Region),
   ("s3-access-key-id", .s3KeyId), ("s3-secret-access-key", .s3Key)]

def IsText (c : Command) (f : String) (s : Setting) : Prop := (c, f, s) ∈ textOptions ∨ (f, s) ∈ commonOptions

/-- The options that are switches: the setting, and the value it gets if the switch is on. -/
def switchOptions : List (Command × String × Switch × Bool) :=
  [(.create, "deduplicate", .addDeduplicate, true), (.create, "no-compress", .addNoCompress, true),
   (.add, "deduplicate", .addDeduplicate, true), (.add, "no-compress", .addNoCompress, true),
   (.update, "no-deduplicate", .updDeduplicate, false), (.update, "no-compress", .updNoCompress, true),
   (.update, "echo", .updEcho, true), (.extract, "with-manifest", .extractManifest, true)]

/-- what a configuration file says about a setting, or the value that holds without it -/
def fileStr (file : ConfFile) (s : Setting) : Str := (mget file.str s).getD (builtinStr s)

/-- what a configuration file says about a parameter of an extension -/
def fileParam (file : ConfFile) (p : ExtParam) : Str := (mget ((mget file.ext p.ext).getD []) p.param).getD []

/-! ## Lemmas -/

theorem overlay_str (k : Conf) (s t : Setting) (v : Str) :
    (overlay k s v).str t = if t = s ∧ v ≠ [] then v else k.str t := by
  by_cases hv : v = []
  · simp [overlay, hv]
  · simp [overlay, hv]

@[simp] theorem overlay_on (k : Conf) (s : Setting) (v : Str) : (overlay k s v).on = k.on := by
  by_cases hv : v = [] <;> simp [overlay, hv]
@[simp] theorem overlay_fixity (k : Conf) (s : Setting) (v : Str) : (overlay k s v).fixity = k.fixity := by
  by_cases hv : v = [] <;> simp [overlay, hv]
@[simp] theorem overlay_info (k : Conf) (s : Setting) (v : Str) : (overlay k s v).info = k.info := by
  by_cases hv : v = [] <;> simp [overlay, hv]
@[simp] theorem overlay_ext (k : Conf) (s : Setting) (v : Str) : (overlay k s v).ext = k.ext := by
  by_cases hv : v = [] <;> simp [overlay, hv]

theorem ifEmpty_str (k : Conf) (s t : Setting) (v : Str) :
    (ifEmpty k s v).str t = if t = s ∧ k.str s = [] ∧ v ≠ [] then v else k.str t := by
  by_cases h : k.str s = [] <;> simp [ifEmpty, h, overlay_str]

@[simp] theorem ifEmpty_on (k : Conf) (s : Setting) (v : Str) : (ifEmpty k s v).on = k.on := by
  unfold ifEmpty; split <;> simp
@[simp] theorem ifEmpty_fixity (k : Conf) (s : Setting) (v : Str) : (ifEmpty k s v).fixity = k.fixity := by
  unfold ifEmpty; split <;> simp
@[simp] theorem ifEmpty_ext (k : Conf) (s : Setting) (v : Str) : (ifEmpty k s v).ext = k.ext := by
  unfold ifEmpty; split <;> simp

@[simp] theorem setOn_str (k : Conf) (s : Switch) (b : Bool) : (setOn k s b).str = k.str := rfl
@[simp] theorem setOn_fixity (k : Conf) (s : Switch) (b : Bool) : (setOn k s b).fixity = k.fixity := rfl
@[simp] theorem setOn_ext (k : Conf) (s : Switch) (b : Bool) : (setOn k s b).ext = k.ext := rfl
theorem setOn_on (k : Conf) (s t : Switch) (b : Bool) : (setOn k s b).on t = if t = s then b else k.on t := rfl

@[simp] theorem switchOn_str (k : Conf) (s : Switch) (b : Bool) : (switchOn k s b).str = k.str := by
  unfold switchOn; split <;> rfl
@[simp] theorem switchOn_fixity (k : Conf) (s : Switch) (b : Bool) : (switchOn k s b).fixity = k.fixity := by
  unfold switchOn; split <;> rfl
@[simp] theorem switchOn_ext (k : Conf) (s : Switch) (b : Bool) : (switchOn k s b).ext = k.ext := by
  unfold switchOn; split <;> rfl
theorem switchOn_on (k : Conf) (s t : Switch) (b : Bool) :
    (switchOn k s b).on t = if t = s ∧ b = true then true else k.on t := by
  cases b <;> simp [switchOn, setOn_on]

@[simp] theorem switchOff_str (k : Conf) (s : Switch) (b : Bool) : (switchOff k s b).str = k.str := by
  unfold switchOff; split <;> rfl
@[simp] theorem switchOff_ext (k : Conf) (s : Switch) (b : Bool) : (switchOff k s b).ext = k.ext := by
  unfold switchOff; split <;> rfl
theorem switchOff_on (k : Conf) (s t : Switch) (b : Bool) :
    (switchOff k s b).on t = if t = s ∧ b = true then false else k.on t := by
  cases b <;> simp [switchOff, setOn_on]

@[simp] theorem fixityTexts_str (c : Command) (g : Given) (k : Conf) : (fixityTexts c g k).str = k.str := by
  unfold fixityTexts; dsimp only; split <;> rfl
@[simp] theorem fixityTexts_on (c : Command) (g : Given) (k : Conf) : (fixityTexts c g k).on = k.on := by
  unfold fixityTexts; dsimp only; split <;> rfl
@[simp] theorem fixityTexts_ext (c : Command) (g : Given) (k : Conf) : (fixityTexts c g k).ext = k.ext := by
  unfold fixityTexts; dsimp only; split <;> rfl
theorem fixityTexts_fixity (c : Command) (g : Given) (k : Conf) :
    (fixityTexts c g k).fixity = k.fixity ++ (if flagStr c g "fixity" = [] then [] else splitOn ',' (flagStr c g "fixity")) := by
  unfold fixityTexts; dsimp only; split <;> simp_all

@[simp] theorem statConf_str (c : Command) (g : Given) (k : Conf) :
    (statConf c g k).str = (overlay (overlay k .statPath (flagStr c g "object-path")) .statId (flagStr c g "object-id")).str := by
  unfold statConf; dsimp only; split <;> rfl
@[simp] theorem statConf_ext (c : Command) (g : Given) (k : Conf) : (statConf c g k).ext = k.ext := by
  unfold statConf; dsimp only; split <;> simp
@[simp] theorem statConf_on (c : Command) (g : Given) (k : Conf) : (statConf c g k).on = k.on := by
  unfold statConf; dsimp only; split <;> simp

/-- the configuration of a command, without the refusals -/
def settled (c : Command) (file : ConfFile) (g : Given) : Conf :=
  let k := initConf c g (loadConf file)
  match c with
  | .init => initTexts c g k
  | .create => addTexts c g (fixityTexts c g (initTexts c g k))
  | .add => addTexts c g (fixityTexts c g k)
  | .update => updateTexts c g k
  | .extract => extractConf c g k
  | .extractmeta => extractMetaConf c g k
  | .stat => statConf c g k
  | .validate => validateConf c g k
  | .display => displayConf c g k

theorem oneObject_eq {p i : Setting} {k k' : Conf} (h : oneObject p i k = .ok k') : k' = k := by
  unfold oneObject at h; split at h
  · exact absurd h (by simp)
  · injection h with h; exact h.symm

theorem doInitConf_eq {known : Str → Bool} {c : Command} {g : Given} {k k' : Conf} (h : doInitConf known c g k = .ok k') :
    k' = initTexts c g k := by
  unfold doInitConf at h; dsimp only at h; split at h
  · injection h with h; exact h.symm
  · exact absurd h (by simp)

theorem doAddConf_eq {known : Str → Bool} {c : Command} {g : Given} {k k' : Conf} (h : doAddConf known c g k = .ok k') :
    k' = addTexts c g (fixityTexts c g k) := by
  unfold doAddConf at h; dsimp only at h; split at h
  · split at h
    · injection h with h; exact h.symm
    · exact absurd h (by simp)
  · exact absurd h (by simp)

theorem doUpdateConf_eq {known : Str → Bool} {c : Command} {g : Given} {k k' : Conf} (h : doUpdateConf known c g k = .ok k') :
    k' = updateTexts c g k := by
  unfold doUpdateConf at h; dsimp only at h; split at h
  · injection h with h; exact h.symm
  · exact absurd h (by simp)

theorem settle_eq {known : Str → Bool} {c : Command} {file : ConfFile} {g : Given} {k : Conf}
    (h : settle known c file g = .ok k) : k = settled c file g := by
  cases c <;> simp only [settle] at h <;> simp only [settled]
  case validate => exact oneObject_eq h
  case init => exact doInitConf_eq h
  case create =>
    obtain ⟨a, ha, hb⟩ := res_bind_eq_ok.1 h
    rw [doAddConf_eq hb, doInitConf_eq ha]
  case add =>
    split at h
    · exact doAddConf_eq h
    · exact absurd h (by simp)
  case update => exact doUpdateConf_eq h
  case stat => exact oneObject_eq h
  case extract => exact oneObject_eq h
  case extractmeta =>
    obtain ⟨a, ha, hb⟩ := res_bind_eq_ok.1 h
    have := oneObject_eq ha; subst this
    split at hb
    · injection hb with hb; exact hb.symm
    · exact absurd hb (by simp)
  case display => injection h with h; exact h.symm

/-- the value of a text in the end: as given, else the default of the option, else as in the file -/
theorem settled_str {c : Command} {f : String} {s : Setting} (h : IsText c f s) (file : ConfFile) (g : Given)
    (hn : flagStr c g f ≠ [] ∨ fileStr file s ≠ []) :
    (settled c file g).str s = if flagStr c g f = [] then fileStr file s else flagStr c g f := by
  by_cases hf : flagStr c g f = []
  · have hs : (mget file.str s).getD (builtinStr s) ≠ [] := by
      rcases hn with hn | hn
      · exact absurd hf hn
      · exact hn
    rcases h with h | h
    · simp only [textOptions, List.mem_cons, List.not_mem_nil, or_false, Prod.mk.injEq] at h
      rcases h with h | h | h | h | h | h | h | h | h | h | h | h | h | h | h | h | h | h | h | h | h | h | h | h | h | h | h | h |
        h | h | h | h | h | h | h | h | h | h <;> obtain ⟨rfl, rfl, rfl⟩ := h <;>
        simp [settled, initConf, initTexts, addTexts, updateTexts, extractConf, extractMetaConf, validateConf, displayConf,
          overlay_str, ifEmpty_str, loadConf, fileStr, hf, hs]
    · simp only [commonOptions, List.mem_cons, List.not_mem_nil, or_false, Prod.mk.injEq] at h
      rcases h with h | h | h | h | h | h <;> obtain ⟨rfl, rfl⟩ := h <;> cases c <;>
        simp [settled, initConf, initTexts, addTexts, updateTexts, extractConf, extractMetaConf, validateConf, displayConf,
          overlay_str, ifEmpty_str, loadConf, fileStr, hf]
  · rcases h with h | h
    · simp only [textOptions, List.mem_cons, List.not_mem_nil, or_false, Prod.mk.injEq] at h
      rcases h with h | h | h | h | h | h | h | h | h | h | h | h | h | h | h | h | h | h | h | h | h | h | h | h | h | h | h | h |
        h | h | h | h | h | h | h | h | h | h <;> obtain ⟨rfl, rfl, rfl⟩ := h <;>
        simp [settled, initConf, initTexts, addTexts, updateTexts, extractConf, extractMetaConf, validateConf, displayConf,
          overlay_str, ifEmpty_str, hf]
    · simp only [commonOptions, List.mem_cons, List.not_mem_nil, or_false, Prod.mk.injEq] at h
      rcases h with h | h | h | h | h | h <;> obtain ⟨rfl, rfl⟩ := h <;> cases c <;>
        simp [settled, initConf, initTexts, addTexts, updateTexts, extractConf, extractMetaConf, validateConf, displayConf,
          overlay_str, ifEmpty_str, hf]

theorem settled_ext (c : Command) (file : ConfFile) (g : Given) : (settled c file g).ext = file.ext := by
  cases c <;> simp [settled, initConf, initTexts, addTexts, updateTexts, extractConf, extractMetaConf, validateConf, displayConf,
    loadConf]

/-- the value of a switch in the end: what the option stands for if it is given as on, else as in the file -/
theorem settled_on {c : Command} {f : String} {sw : Switch} {b : Bool} (h : (c, f, sw, b) ∈ switchOptions) (file : ConfFile)
    (g : Given) :
    (settled c file g).on sw = if flagOn g f = true then b else (mget file.on sw).getD (builtinOn sw) := by
  simp only [switchOptions, List.mem_cons, List.not_mem_nil, or_false, Prod.mk.injEq] at h
  by_cases hb : flagOn g f = true <;>
    rcases h with h | h | h | h | h | h | h | h <;> obtain ⟨rfl, rfl, rfl, rfl⟩ := h <;>
    simp [settled, initConf, initTexts, addTexts, updateTexts, extractConf, switchOn_on, switchOff_on, loadConf, hb]

theorem settled_fixity {c : Command} (hc : c = .add ∨ c = .create) (file : ConfFile) (g : Given) :
    (settled c file g).fixity = file.fixity.getD [] ++ (if (mget g.str "fixity".toList).getD [] = [] then [] else splitOn ',' ((mget g.str "fixity".toList).getD [])) := by
  rcases hc with rfl | rfl <;>
    simp only [settled, initConf, initTexts, addTexts, loadConf, overlay_fixity, ifEmpty_fixity, switchOn_fixity, fixityTexts_fixity] <;>
    rfl

/-- what is recorded for a parameter -/
theorem paramValues_get {c : Command} {p : ExtParam} (hp : p ∈ extParams) (hc : c.name ∈ p.functions) (g : Given) (k : Conf) :
    mget (paramValues c g k) p.flag =
      some (if (mget ((mget k.ext p.ext).getD []) p.param).getD [] ≠ [] then (mget ((mget k.ext p.ext).getD []) p.param).getD []
        else (mget g.str p.flag).getD []) := by
  simp only [extParams, List.mem_cons, List.not_mem_nil, or_false] at hp
  rcases hp with rfl | rfl | rfl | rfl | rfl <;> cases c <;> first | exact absurd hc (by decide) | rfl

/-- a parameter of other commands is not recorded -/
theorem paramValues_none {c : Command} {p : ExtParam} (hp : p ∈ extParams) (hc : c.name ∉ p.functions) (g : Given) (k : Conf) :
    mget (paramValues c g k) p.flag = none := by
  simp only [extParams, List.mem_cons, List.not_mem_nil, or_false] at hp
  rcases hp with rfl | rfl | rfl | rfl | rfl <;> cases c <;> first | exact absurd (by decide) hc | rfl

/-! ## C140: what is given on the command line is used -/

/-- an example: the configuration that holds without a configuration file (`config/default.toml`) -/
def exDefault : ConfFile :=
  { str := [(.initVersion, "1.1".toList), (.initDigest, "sha512".toList), (.addMessage, "initial commit".toList),
      (.addDigest, "sha512".toList), (.addUserName, "unknown user".toList),
      (.addUserAddress, "https://github.com/je4/gocfl".toList)]
    on := [(.aes, false)]
    fixity := some (["sha256", "sha1", "md5"].map String.toList)
    ext := [("NNNN-metafile".toList, [("Source".toList, [])]),
      ("NNNN-mets".toList, [("descriptive-metadata".toList, "other:metadata:info.json".toList)])] }

/-- the algorithms of the examples -/
def exAlgs (a : Str) : Bool := decide (a ∈ ["md5", "sha1", "sha256", "sha512"].map String.toList)

/-- C140 in full: texts, switches, parameters of extensions and fixity algorithms given on the command line are those the command
works with. -/
def C140_full : Prop :=
  ∀ (known : Str → Bool) (c : Command) (file : ConfFile) (g : Given) (k : Conf), settle known c file g = .ok k →
    (∀ f s v, IsText c f s → mget g.str f.toList = some v → v ≠ [] → k.str s = v) ∧
    (∀ f sw b x, (c, f, sw, b) ∈ switchOptions → mget g.on f.toList = some x → k.on sw = (if x then b else !b)) ∧
    (∀ p ∈ extParams, c.name ∈ p.functions → ∀ v, mget g.str p.flag = some v → v ≠ [] →
      mget (paramValues c g k) p.flag = some v) ∧
    (c = .add ∨ c = .create → ∀ v, mget g.str "fixity".toList = some v →
      ∀ a ∈ splitOn ',' v, algName a ≠ [] → algName a ∈ fixityAlgs k)

/-- C140 for texts -/
theorem C140_texts {known : Str → Bool} {c : Command} {file : ConfFile} {g : Given} {k : Conf} (h : settle known c file g = .ok k)
    {f : String} {s : Setting} {v : Str} (hf : IsText c f s) (hg : mget g.str f.toList = some v) (hv : v ≠ []) : k.str s = v := by
  have e : flagStr c g f = v := by simp [flagStr, hg]
  rw [settle_eq h, settled_str hf file g (.inl (by rw [e]; exact hv)), e, if_neg hv]

/-- C140 for switches, exact: a switch given as on has its effect, one given as off has none.  Missing: an option given as off. -/
theorem C140_switches_partial {known : Str → Bool} {c : Command} {file : ConfFile} {g : Given} {k : Conf}
    (h : settle known c file g = .ok k) {f : String} {sw : Switch} {b : Bool} (hf : (c, f, sw, b) ∈ switchOptions) :
    (mget g.on f.toList = some true → k.on sw = b) ∧
    (mget g.on f.toList ≠ some true → k.on sw = (mget file.on sw).getD (builtinOn sw)) := by
  rw [settle_eq h, settled_on hf]
  constructor
  · intro hg; simp [flagOn, hg]
  · intro hg
    have : flagOn g f = false := by
      unfold flagOn
      cases hm : mget g.on f.toList with
      | none => rfl
      | some x => cases x with
        | false => rfl
        | true => exact absurd hm hg
    simp [this]

/-- C140 for parameters of extensions, exact: what the file says goes before what is given.  Missing: a parameter that is also in
the file. -/
theorem C140_params_partial {known : Str → Bool} {c : Command} {file : ConfFile} {g : Given} {k : Conf}
    (h : settle known c file g = .ok k) {p : ExtParam} (hp : p ∈ extParams) (hc : c.name ∈ p.functions) :
    mget (paramValues c g k) p.flag =
      some (if fileParam file p = [] then (mget g.str p.flag).getD [] else fileParam file p) := by
  rw [paramValues_get hp hc, settle_eq h, settled_ext]
  unfold fileParam
  by_cases hf : (mget ((mget file.ext p.ext).getD []) p.param).getD [] = []
  · rw [if_neg (by simpa using hf), if_pos hf]
  · rw [if_pos hf, if_neg hf]

/-- C140 for fixity: the algorithms are those of the file and those given, all of them known; none else -/
theorem C140_fixity {known : Str → Bool} {c : Command} (hc : c = .add ∨ c = .create) {file : ConfFile} {g : Given} {k : Conf}
    (h : settle known c file g = .ok k) :
    (∀ a, a ∈ fixityAlgs k ↔ a ≠ [] ∧ ((∃ x ∈ file.fixity.getD [], algName x = a) ∨
      ∃ v, mget g.str "fixity".toList = some v ∧ v ≠ [] ∧ ∃ x ∈ splitOn ',' v, algName x = a)) ∧
    ∀ a ∈ fixityAlgs k, known a = true := by
  have hk := settle_eq h
  constructor
  · intro a
    rw [hk, fixityAlgs, settled_fixity hc]
    simp only [List.mem_filter, List.mem_map, List.mem_append, decide_eq_true_eq]
    constructor
    · rintro ⟨⟨x, hx, rfl⟩, ha⟩
      refine ⟨ha, ?_⟩
      rcases hx with hx | hx
      · exact .inl ⟨x, hx, rfl⟩
      · cases hm : mget g.str "fixity".toList with
        | none => rw [hm] at hx; simp at hx
        | some v =>
          rw [hm] at hx
          by_cases hv : v = []
          · simp [hv] at hx
          · rw [if_neg (by simpa using hv)] at hx
            exact .inr ⟨v, rfl, hv, x, hx, rfl⟩
    · rintro ⟨ha, hx⟩
      refine ⟨?_, ha⟩
      rcases hx with ⟨x, hx, rfl⟩ | ⟨v, hm, hv, x, hx, rfl⟩
      · exact ⟨x, .inl hx, rfl⟩
      · exact ⟨x, .inr (by rw [hm]; simpa [hv] using hx), rfl⟩
  · have key : ∀ (k0 k' : Conf), doAddConf known c g k0 = .ok k' → ∀ a ∈ fixityAlgs k', known a = true := by
      intro k0 k' hd a ha
      have he := doAddConf_eq hd
      unfold doAddConf at hd; dsimp only at hd; split at hd
      · rename_i hall
        have : fixityAlgs k' = fixityAlgs (fixityTexts c g k0) := by
          rw [he]; unfold fixityAlgs
          simp only [addTexts, overlay_fixity, ifEmpty_fixity, switchOn_fixity]
        rw [this] at ha
        exact List.all_eq_true.1 hall a ha
      · exact absurd hd (by simp)
    rcases hc with rfl | rfl <;> simp only [settle] at h
    · split at h
      · exact key _ _ h
      · exact absurd h (by simp)
    · obtain ⟨a, _, hb⟩ := res_bind_eq_ok.1 h
      exact key _ _ hb

/-- an example: `add` with options -/
def exAddGiven : Given :=
  { str := [("object-id".toList, "id:1".toList), ("user-name".toList, "Jane".toList), ("digest".toList, "sha256".toList),
      ("fixity".toList, " SHA512, md5".toList), ("ext-NNNN-mets-descriptive-metadata".toList, "ead:metadata:ead.xml".toList)]
    on := [("no-compress".toList, false)] }

example : ∃ k, settle exAlgs .add exDefault exAddGiven = .ok k ∧ k.str .addUserName = "Jane".toList ∧
    k.str .addDigest = "sha256".toList ∧ k.str .addMessage = "initial commit".toList ∧
    fixityAlgs k = ["sha256", "sha1", "md5", "sha512", "md5"].map String.toList :=
  ⟨_, rfl, by decide, by decide, by decide, by decide⟩

/-- C140 is violated: without a configuration file, the place of the descriptive metadata given on the command line is not
used. -/
theorem C140_full_fails : ¬ C140_full := by
  intro h
  have h := (h exAlgs .add exDefault exAddGiven _ rfl).2.2.1
    ⟨"NNNN-mets".toList, "descriptive-metadata".toList, ["add", "update", "create"].map String.toList⟩ (by simp [extParams])
    (by decide) "ead:metadata:ead.xml".toList (by decide) (by decide)
  exact absurd h (by decide)

/-- C140 is violated for switches too: `--no-compress=false` is not used. -/
theorem C140_full_fails_switch : ¬ C140_full := by
  intro h
  have h := (h exAlgs .add exDefault exAddGiven _ rfl).2.1 "no-compress" .addNoCompress true false (by simp [switchOptions])
    (by decide)
  exact absurd h (by decide)

/-! ## C141: what the configuration file says is used if nothing is given on the command line -/

/-- C141 in full -/
def C141_full : Prop :=
  ∀ (known : Str → Bool) (c : Command) (file : ConfFile) (g : Given) (k : Conf), settle known c file g = .ok k →
    (∀ f s v, IsText c f s → mget g.str f.toList = none → mget file.str s = some v → v ≠ [] → k.str s = v) ∧
    (∀ f sw b x, (c, f, sw, b) ∈ switchOptions → mget g.on f.toList = none → mget file.on sw = some x → k.on sw = x) ∧
    (∀ p ∈ extParams, c.name ∈ p.functions → mget g.str p.flag = none → fileParam file p ≠ [] →
      mget (paramValues c g k) p.flag = some (fileParam file p))

/-- C141 for texts.  Missing: the six options of `lostSettings`. -/
theorem C141_texts_partial {known : Str → Bool} {c : Command} {file : ConfFile} {g : Given} {k : Conf}
    (h : settle known c file g = .ok k) {f : String} {s : Setting} {v : Str} (hf : IsText c f s)
    (hd : flagDefault c f.toList = []) (hg : mget g.str f.toList = none) (hm : mget file.str s = some v) (hv : v ≠ []) :
    k.str s = v := by
  have e : flagStr c g f = [] := by simp [flagStr, hg, hd]
  have e' : fileStr file s = v := by simp [fileStr, hm]
  rw [settle_eq h, settled_str hf file g (.inr (by rw [e']; exact hv)), e, e', if_pos rfl]

/-- C141 for switches -/
theorem C141_switches {known : Str → Bool} {c : Command} {file : ConfFile} {g : Given} {k : Conf}
    (h : settle known c file g = .ok k) {f : String} {sw : Switch} {b x : Bool} (hf : (c, f, sw, b) ∈ switchOptions)
    (hg : mget g.on f.toList = none) (hm : mget file.on sw = some x) : k.on sw = x := by
  rw [(C140_switches_partial h hf).2 (by rw [hg]; simp), hm]; rfl

/-- C141 for parameters of extensions -/
theorem C141_params {known : Str → Bool} {c : Command} {file : ConfFile} {g : Given} {k : Conf}
    (h : settle known c file g = .ok k) {p : ExtParam} (hp : p ∈ extParams) (hc : c.name ∈ p.functions)
    (hf : fileParam file p ≠ []) : mget (paramValues c g k) p.flag = some (fileParam file p) := by
  rw [C140_params_partial h hp hc, if_neg hf]

/-- The settings a command never takes from the file, with the value it works with. -/
def lostSettings : List (Command × String × Setting × String) :=
  [(.create, "ocfl-version", .initVersion, "1.1"), (.extract, "area", .extractArea, "content"),
   (.extractmeta, "version", .metaVersion, "latest"), (.extractmeta, "format", .metaFormat, "json"),
   (.display, "display-addr", .dispAddr, "localhost:8080"), (.display, "display-external-addr", .dispExternal, "http://localhost:8080")]

/-- C141, what happens instead: whatever the file says, the default of the option is used. -/
theorem C141_lost {known : Str → Bool} {c : Command} {file : ConfFile} {g : Given} {k : Conf}
    (h : settle known c file g = .ok k) {f : String} {s : Setting} {d : String} (hl : (c, f, s, d) ∈ lostSettings)
    (hg : mget g.str f.toList = none) : k.str s = d.toList := by
  have hd : IsText c f s ∧ flagDefault c f.toList = d.toList ∧ d.toList ≠ [] := by
    simp only [lostSettings, List.mem_cons, List.not_mem_nil, or_false, Prod.mk.injEq] at hl
    rcases hl with hl | hl | hl | hl | hl | hl <;> obtain ⟨rfl, rfl, rfl, rfl⟩ := hl <;>
      exact ⟨.inl (by simp [textOptions]), by decide, by decide⟩
  have e : flagStr c g f = d.toList := by simp [flagStr, hg, hd.2.1]
  rw [settle_eq h, settled_str hd.1 file g (.inl (by rw [e]; exact hd.2.2)), e, if_neg hd.2.2]

/-- the options with a default are these six: an option not among them has none -/
theorem C141_others {c : Command} {f : String} {s : Setting} (h : IsText c f s) :
    flagDefault c f.toList = [] ∨ ∃ d, (c, f, s, d) ∈ lostSettings := by
  rcases h with h | h
  · simp only [textOptions, List.mem_cons, List.not_mem_nil, or_false, Prod.mk.injEq] at h
    rcases h with h | h | h | h | h | h | h | h | h | h | h | h | h | h | h | h | h | h | h | h | h | h | h | h | h | h | h | h |
      h | h | h | h | h | h | h | h | h | h <;> obtain ⟨rfl, rfl, rfl⟩ := h <;>
      first
      | exact .inl (by decide)
      | exact .inr ⟨_, by simp only [lostSettings, List.mem_cons, Prod.mk.injEq, true_and]; simp; rfl⟩
  · simp only [commonOptions, List.mem_cons, List.not_mem_nil, or_false, Prod.mk.injEq] at h
    rcases h with h | h | h | h | h | h <;> obtain ⟨rfl, rfl⟩ := h <;> cases c <;> exact .inl (by decide)

/-- an example: a file asking for OCFL 1.0 -/
def exOld : ConfFile := { str := [(.initVersion, "1.0".toList), (.initDigest, "sha512".toList)] }

/-- C141 is violated: `create` makes a storage root of version 1.1 although the file says 1.0. -/
theorem C141_full_fails : ¬ C141_full := by
  intro h
  have h := (h exAlgs .create exOld {} _ rfl).1 "ocfl-version" .initVersion "1.0".toList (.inl (by simp [textOptions])) rfl rfl
    (by decide)
  exact absurd h (by decide)

/-- `init` does use it -/
example : ∃ k, settle exAlgs .init exOld {} = .ok k ∧ k.str .initVersion = "1.0".toList := ⟨_, rfl, by decide⟩

/-! ## C142: every option makes a difference -/

/-- what a run takes from command line and file: the configuration, what the extensions get, how storage roots are opened -/
structure Taken where
  conf : Conf
  primary : Str → Str
  source : Option Str
  area : Str
  opened : (Str → Bool) → Str → Opened
  digest : Option Str

def taken (known : Str → Bool) (c : Command) (file : ConfFile) (g : Given) : Res Taken :=
  settle known c file g >>= fun k =>
  .ok { conf := k
        primary := fun own => metsPrimaryParam own (paramValues c g k)
        source := metafileSource (paramValues c g k)
        area := extractedArea c g k
        opened := fun s3 path => openAs s3 (factoryArgs c k) path
        digest := newObjectDigest c k }

/-- the options that are texts of each command, without those every command has -/
def accepted (c : Command) : List String :=
  ((textOptions.filter (fun e => decide (e.1 = c))).map (fun e => e.2.1)) ++
  match c with
  | .create => ["fixity", "default-area", "aes-key", "aes-iv", "keypass-file", "keypass-entry", "keypass-key",
      "ext-NNNN-metafile-source", "ext-NNNN-mets-descriptive-metadata"]
  | .add => ["fixity", "ext-NNNN-metafile-source", "ext-NNNN-mets-descriptive-metadata"]
  | .update => ["aes-key", "aes-iv", "ext-NNNN-metafile-source", "ext-NNNN-mets-descriptive-metadata"]
  | .extract => ["ext-NNNN-metafile-target", "ext-NNNN-content-subpath-area"]
  | .stat => ["stat-info"]
  | _ => []

/-- the switches of each command -/
def acceptedSwitches (c : Command) : List String :=
  ((switchOptions.filter (fun e => decide (e.1 = c))).map (fun e => e.2.1)) ++
  match c with
  | .init => ["no-compress"]
  | .create => ["encrypt-aes"]
  | .update => ["encrypt-aes"]
  | _ => []

/-- C142 in full -/
def C142_full : Prop :=
  ∀ (c : Command),
    (∀ f ∈ accepted c, ∃ known file g v, taken known c file { g with str := mset g.str f.toList v } ≠ taken known c file g) ∧
    (∀ f ∈ acceptedSwitches c, ∃ known file g v, taken known c file { g with on := mset g.on f.toList v } ≠ taken known c file g)

/-- the options that make no difference -/
def ignoredTexts : List (Command × String) :=
  [(.create, "default-area"), (.create, "aes-key"), (.create, "aes-iv"), (.create, "keypass-file"), (.create, "keypass-entry"),
   (.create, "keypass-key"), (.update, "aes-key"), (.update, "aes-iv"), (.extract, "ext-NNNN-metafile-target")]

def ignoredSwitches : List (Command × String) := [(.init, "no-compress"), (.create, "encrypt-aes"), (.update, "encrypt-aes")]

theorem flagStr_mset_ne {f : String} {f' : Str} (hne : f' ≠ f.toList) (c : Command) (g : Given) (v : Str) :
    flagStr c { g with str := mset g.str f' v } f = flagStr c g f := by
  unfold flagStr; rw [mget_mset_ne _ hne]

theorem flagOn_mset_ne {f : String} {f' : Str} (hne : f' ≠ f.toList) (g : Given) (v : Bool) :
    flagOn { g with on := mset g.on f' v } f = flagOn g f := by
  unfold flagOn; rw [mget_mset_ne _ hne]

theorem paramValues_mset_ne {f' : Str} (hne : ∀ p ∈ extParams, f' ≠ p.flag) (c : Command) (g : Given) (v : Str) (k : Conf) :
    paramValues c { g with str := mset g.str f' v } k = paramValues c g k := by
  unfold paramValues
  congr 1
  apply List.filterMap_congr
  intro p hp
  unfold ExtParam.get
  dsimp only
  rw [mget_mset_ne _ (hne p hp)]

theorem paramValues_on (c : Command) (g : Given) (x : AMap Str Bool) (k : Conf) :
    paramValues c { g with on := x } k = paramValues c g k := rfl

/-- the options that are read as texts, and as switches -/
def readTexts : List String :=
  ["log-file", "log-level", "s3-endpoint", "s3-region", "s3-access-key-id", "s3-secret-access-key",
   "default-storageroot-extensions", "ocfl-version", "digest", "fixity", "user-name", "user-address", "message",
   "default-object-extensions", "object-path", "object-id", "version", "area", "format", "output", "stat-info", "display-addr",
   "display-external-addr", "display-templates", "display-tls-cert", "display-tls-key"]

def readSwitches : List String := ["deduplicate", "no-compress", "no-deduplicate", "echo", "with-manifest"]

theorem settle_congr {known : Str → Bool} {c : Command} {file : ConfFile} {g g' : Given}
    (hs : ∀ f ∈ readTexts, flagStr c g' f = flagStr c g f) (ho : ∀ f ∈ readSwitches, flagOn g' f = flagOn g f) :
    settle known c file g' = settle known c file g := by
  simp only [readTexts, List.forall_mem_cons, List.not_mem_nil] at hs
  simp only [readSwitches, List.forall_mem_cons, List.not_mem_nil] at ho
  have e1 : ∀ k, initConf c g' k = initConf c g k := fun k => by simp only [initConf, hs]
  have e2 : ∀ k, initTexts c g' k = initTexts c g k := fun k => by simp only [initTexts, hs]
  have e3 : ∀ k, fixityTexts c g' k = fixityTexts c g k := fun k => by simp only [fixityTexts, hs]
  have e4 : ∀ k, addTexts c g' k = addTexts c g k := fun k => by simp only [addTexts, hs, ho]
  have e5 : ∀ k, updateTexts c g' k = updateTexts c g k := fun k => by simp only [updateTexts, hs, ho]
  have e6 : ∀ k, extractConf c g' k = extractConf c g k := fun k => by simp only [extractConf, hs, ho]
  have e7 : ∀ k, extractMetaConf c g' k = extractMetaConf c g k := fun k => by simp only [extractMetaConf, hs]
  have e8 : ∀ k, statConf c g' k = statConf c g k := fun k => by simp only [statConf, hs]
  have e9 : ∀ k, validateConf c g' k = validateConf c g k := fun k => by simp only [validateConf, hs]
  have e10 : ∀ k, displayConf c g' k = displayConf c g k := fun k => by simp only [displayConf, hs]
  have a1 : ∀ k, doInitConf known c g' k = doInitConf known c g k := fun k => by unfold doInitConf; rw [e2]
  have a2 : ∀ k, doAddConf known c g' k = doAddConf known c g k := fun k => by unfold doAddConf; rw [e3]; dsimp only; rw [e4]
  have a3 : ∀ k, doUpdateConf known c g' k = doUpdateConf known c g k := fun k => by unfold doUpdateConf; rw [e5]
  unfold settle
  cases c <;> simp only [e1, e6, e7, e8, e9, e10, a1, a2, a3]

theorem settle_mset_ne {f' : Str} (hne : ∀ f ∈ readTexts, f' ≠ f.toList) (known : Str → Bool) (c : Command) (file : ConfFile)
    (g : Given) (v : Str) : settle known c file { g with str := mset g.str f' v } = settle known c file g :=
  settle_congr (fun f hf => flagStr_mset_ne (hne f hf) c g v) (fun _ _ => rfl)

theorem settle_mset_on {f' : Str} (hne : ∀ f ∈ readSwitches, f' ≠ f.toList) (known : Str → Bool) (c : Command) (file : ConfFile)
    (g : Given) (v : Bool) : settle known c file { g with on := mset g.on f' v } = settle known c file g :=
  settle_congr (fun _ _ => rfl) (fun f hf => flagOn_mset_ne (hne f hf) g v)

theorem taken_mset_ne {f' : Str} (hne : ∀ f ∈ readTexts, f' ≠ f.toList) (hp : ∀ p ∈ extParams, f' ≠ p.flag) (known : Str → Bool)
    (c : Command) (file : ConfFile) (g : Given) (v : Str) :
    taken known c file { g with str := mset g.str f' v } = taken known c file g := by
  simp only [taken, settle_mset_ne hne, paramValues_mset_ne hp, extractedArea]

/-- C142, the options that make no difference: whatever is given, with whatever else. -/
theorem C142_ignored (known : Str → Bool) (file : ConfFile) (g : Given) :
    (∀ c f v, (c, f) ∈ ignoredTexts →
      taken known c file { g with str := mset g.str f.toList v } = taken known c file g) ∧
    (∀ c f v, (c, f) ∈ ignoredSwitches →
      taken known c file { g with on := mset g.on f.toList v } = taken known c file g) := by
  constructor
  · intro c f v h
    simp only [ignoredTexts, List.mem_cons, List.not_mem_nil, or_false, Prod.mk.injEq] at h
    rcases h with h | h | h | h | h | h | h | h | h <;> obtain ⟨rfl, rfl⟩ := h <;>
      first
      | exact taken_mset_ne (by decide) (by decide) known _ file g v
      | skip
    simp only [taken, settle_mset_ne (f' := "ext-NNNN-metafile-target".toList) (by decide)]
    congr 1
    funext k
    have h2 : metafileSource (paramValues .extract { g with str := mset g.str "ext-NNNN-metafile-target".toList v } k) =
        metafileSource (paramValues .extract g k) := rfl
    have h3 : extractedArea .extract { g with str := mset g.str "ext-NNNN-metafile-target".toList v } k =
        extractedArea .extract g k := by
      have e : mget (mset g.str "ext-NNNN-metafile-target".toList v) "ext-NNNN-content-subpath-area".toList =
          mget g.str "ext-NNNN-content-subpath-area".toList := mget_mset_ne _ (by decide) _
      have a : ∀ g, mget (paramValues .extract g k) "ext-NNNN-content-subpath-area".toList =
          some (if (mget ((mget k.ext "NNNN-content-subpath".toList).getD []) "area".toList).getD [] ≠ [] then
            (mget ((mget k.ext "NNNN-content-subpath".toList).getD []) "area".toList).getD []
            else (mget g.str "ext-NNNN-content-subpath-area".toList).getD []) := fun _ => rfl
      unfold extractedArea effectiveArea subpathArea
      rw [a, a]
      dsimp only
      rw [e]
    rw [h2, h3]
    rfl
  · intro c f v h
    have hne : c = .init ∨ ∀ f' ∈ readSwitches, f.toList ≠ f'.toList := by
      simp only [ignoredSwitches, List.mem_cons, List.not_mem_nil, or_false, Prod.mk.injEq] at h
      rcases h with h | h | h <;> obtain ⟨rfl, rfl⟩ := h
      · exact .inl rfl
      all_goals exact .inr (by decide)
    rcases hne with rfl | hne
    · rfl
    · simp only [taken, settle_mset_on hne, extractedArea]
      rfl

/-- what can be seen of what a run has taken, for telling two runs apart -/
structure Seen where
  texts : List Str
  switches : List Bool
  fixity : List Str
  info : List Str
  primary : Str
  source : Option Str
  area : Str
  deriving DecidableEq

def seen : Res Taken → Option Seen
  | .ok t => some ⟨[Setting.logFile, .logLevel, .s3Endpoint, .s3Region, .s3KeyId, .s3Key, .initVersion, .initExtensions, .initDigest,
      .addExtensions, .addUserName, .addUserAddress, .addDigest, .addMessage, .updUserName, .updUserAddress, .updMessage, .updDigest,
      .extractPath, .extractId, .extractVersion, .extractArea, .metaPath, .metaId, .metaVersion, .metaFormat, .metaOutput,
      .statPath, .statId, .validatePath, .validateId, .dispAddr, .dispExternal, .dispTemplates, .dispCert, .dispKey].map t.conf.str,
      [Switch.addDeduplicate, .addNoCompress, .updDeduplicate, .updNoCompress, .updEcho, .extractManifest].map t.conf.on,
      t.conf.fixity, t.conf.info, t.primary [], t.source, t.area⟩
  | .error _ => none

/-- a configuration file with every switch as it is when the option is not given, and a command line with an empty area -/
def exSeenFile : ConfFile := { on := [(.addNoCompress, false), (.updNoCompress, false)] }
def exSeen : Given := { str := [("area".toList, [])] }

/-- C142, exactly: the options that make no difference to what a run takes are the twelve listed.  Missing for the full
statement: those twelve; and what a run takes may still be without effect (C145: the digest algorithm of `init`). -/
theorem C142_exact_partial (c : Command) :
    (∀ f ∈ accepted c, (∃ known file g v, taken known c file { g with str := mset g.str f.toList v } ≠ taken known c file g) ↔
      (c, f) ∉ ignoredTexts) ∧
    (∀ f ∈ acceptedSwitches c, (∃ known file g v, taken known c file { g with on := mset g.on f.toList v } ≠ taken known c file g) ↔
      (c, f) ∉ ignoredSwitches) := by
  have h1 : ∀ f ∈ accepted c, (c, f) ∉ ignoredTexts →
      seen (taken (fun _ => true) c exSeenFile ⟨mset exSeen.str f.toList "JSON".toList, exSeen.on⟩) ≠
        seen (taken (fun _ => true) c exSeenFile exSeen) := by
    cases c <;> decide +kernel
  have h2 : ∀ f ∈ acceptedSwitches c, (c, f) ∉ ignoredSwitches →
      seen (taken (fun _ => true) c exSeenFile ⟨exSeen.str, mset exSeen.on f.toList true⟩) ≠
        seen (taken (fun _ => true) c exSeenFile exSeen) := by
    cases c <;> decide +kernel
  refine ⟨fun f hf => ⟨?_, fun h => ⟨_, _, _, _, fun e => h1 f hf h (congrArg seen e)⟩⟩,
    fun f hf => ⟨?_, fun h => ⟨_, _, _, _, fun e => h2 f hf h (congrArg seen e)⟩⟩⟩
  · rintro ⟨known, file, g, v, h⟩ hi
    exact h ((C142_ignored known file g).1 c f v hi)
  · rintro ⟨known, file, g, v, h⟩ hi
    exact h ((C142_ignored known file g).2 c f v hi)

/-- C142, the area of `extract`: the parameter of the extension makes a difference only if `--area` is given as empty. -/
theorem C142_area {known : Str → Bool} {file : ConfFile} {g : Given} {k : Conf} (h : settle known .extract file g = .ok k)
    (hg : mget g.str "area".toList ≠ some []) (v : Str) :
    extractedArea .extract { g with str := mset g.str "ext-NNNN-content-subpath-area".toList v } k = extractedArea .extract g k := by
  have hf : flagStr .extract g "area" ≠ [] := by
    unfold flagStr
    cases hm : mget g.str "area".toList with
    | none => decide
    | some x => intro e; exact hg (by rw [hm]; exact congrArg some e)
  have e : k.str .extractArea = flagStr .extract g "area" := by
    rw [settle_eq h, settled_str (.inl (by simp [textOptions])) file g (.inl hf), if_neg hf]
  unfold extractedArea effectiveArea
  rw [e, if_neg hf, if_neg hf]

/-- C142 is violated: `create --encrypt-aes` is the same as `create`. -/
theorem C142_full_fails : ¬ C142_full := by
  intro h
  obtain ⟨known, file, g, v, hv⟩ := (h .create).2 "encrypt-aes" (by decide)
  exact hv ((C142_ignored known file g).2 .create "encrypt-aes" v (by simp [ignoredSwitches]))

/-- options that do make a difference -/
example : taken exAlgs .create exDefault { str := [("user-name".toList, "Jane".toList)] } ≠ taken exAlgs .create exDefault {} := by
  intro h
  have h : (some "Jane".toList : Option Str) = some "unknown user".toList := by
    have := congrArg (fun (r : Res Taken) => match r with | .ok t => some (t.conf.str .addUserName) | .error _ => none) h
    exact this
  exact absurd h (by decide)

/-! ## C143: containers are encrypted if encryption is configured -/

/-- the commands that write -/
def Writes (c : Command) : Prop := c = .init ∨ c = .create ∨ c = .add ∨ c = .update

/-- C143 in full: encryption configured, every command that writes a container encrypts it. -/
def C143_full : Prop :=
  ∀ (known : Str → Bool) (c : Command) (file : ConfFile) (g : Given) (k : Conf) (isS3 : Str → Bool) (path : Str),
    Writes c → settle known c file g = .ok k → mget file.on .aes = some true → ".zip".toList.isSuffixOf path = true →
    ∃ comp, openAs isS3 (factoryArgs c k) path = .zip true true comp

theorem settled_aes (c : Command) (file : ConfFile) (g : Given) :
    (settled c file g).on .aes = (mget file.on .aes).getD false := by
  cases c <;> simp [settled, initConf, initTexts, addTexts, updateTexts, extractConf, extractMetaConf, validateConf, displayConf,
    loadConf, switchOn_on, switchOff_on, builtinOn]

/-- C143 for `init` and `create`, exact: encrypted if and only if the file says so, whatever is given on the command line.
Missing: `add` and `update`. -/
theorem C143_made_partial {known : Str → Bool} {c : Command} {file : ConfFile} {g : Given} {k : Conf}
    (h : settle known c file g = .ok k) (hc : c = .init ∨ c = .create) (isS3 : Str → Bool) {path : Str}
    (hp : ".zip".toList.isSuffixOf path = true) :
    (∃ comp, openAs isS3 (factoryArgs c k) path = .zip true true comp) ↔ mget file.on .aes = some true := by
  have e : k.on .aes = (mget file.on .aes).getD false := by rw [settle_eq h, settled_aes]
  have e' : mget file.on .aes = some true ↔ k.on .aes = true := by
    rw [e]; cases mget file.on .aes with
    | none => simp
    | some x => simp
  rw [e']
  rcases hc with rfl | rfl <;> unfold openAs <;> rw [if_pos hp] <;> simp [factoryArgs]

/-- C143, what `add` and `update` do: a container is written without encryption, whatever the file says and whatever is given. -/
theorem C143_plain (k : Conf) {c : Command} (hc : c = .add ∨ c = .update) (isS3 : Str → Bool) {path : Str}
    (hp : ".zip".toList.isSuffixOf path = true) : ∃ comp, openAs isS3 (factoryArgs c k) path = .zip true false comp := by
  rcases hc with rfl | rfl <;> unfold openAs <;> rw [if_pos hp] <;> exact ⟨_, rfl⟩

/-- an example: encryption is configured -/
def exSecret : ConfFile := { exDefault with on := [(.aes, true)] }

/-- C143 is violated: a container made encrypted is written without encryption by the first `add`. -/
theorem C143_full_fails : ¬ C143_full := by
  intro h
  obtain ⟨comp, h⟩ := h exAlgs .add exSecret {} _ (fun _ => false) "/tmp/a.zip".toList (.inr (.inr (.inl rfl))) rfl rfl (by decide)
  obtain ⟨comp', h'⟩ := C143_plain (settled .add exSecret {}) (.inl rfl) (fun _ => false) (path := "/tmp/a.zip".toList) (by decide)
  have : openAs (fun _ => false) (factoryArgs .add (settled .add exSecret {})) "/tmp/a.zip".toList = .zip true true comp := h
  rw [h'] at this
  injection this with _ h2
  exact absurd h2 (by decide)

/-- `create` with that configuration -/
example : ∃ k, settle exAlgs .create exSecret {} = .ok k ∧
    openAs (fun _ => false) (factoryArgs .create k) "/tmp/a.zip".toList = .zip true true false := ⟨_, rfl, by decide⟩

/-! ## C144: an object keeps the configuration of its extensions -/

/-- the parameter of METS -/
def metsParam : ExtParam :=
  ⟨"NNNN-mets".toList, "descriptive-metadata".toList, ["add", "update", "create"].map String.toList⟩

theorem metsParam_mem : metsParam ∈ extParams := .tail _ (.tail _ (.tail _ (.head _)))

/-- C144 in full: if no place of the descriptive metadata is given, on the command line or in the file, the one in the configuration
of the object is used. -/
def C144_full : Prop :=
  ∀ (known : Str → Bool) (c : Command) (file : ConfFile) (g : Given) (k : Conf) (own : Str), settle known c file g = .ok k →
    mget g.str metsParam.flag = none → fileParam file metsParam = [] → metsPrimaryParam own (paramValues c g k) = own

/-- C144 for commands that do not write.  Missing: `create`, `add` and `update`. -/
theorem C144_reading_partial {c : Command} (hc : ¬ (c = .create ∨ c = .add ∨ c = .update)) (g : Given) (k : Conf) (own : Str) :
    metsPrimaryParam own (paramValues c g k) = own := by
  have hn : c.name ∉ metsParam.functions := by
    cases c <;> first | decide | exact absurd (by decide) hc
  have := paramValues_none (p := metsParam) metsParam_mem hn g k
  unfold metsPrimaryParam
  rw [show ("ext-NNNN-mets-descriptive-metadata".toList : Str) = metsParam.flag from rfl, this]; rfl

/-- C144, what `create`, `add` and `update` do: what the configuration of the object says is never used; what is used is what the
file says, else what is given, else nothing. -/
theorem C144_writing {known : Str → Bool} {c : Command} {file : ConfFile} {g : Given} {k : Conf}
    (h : settle known c file g = .ok k) (hc : c = .create ∨ c = .add ∨ c = .update) (own : Str) :
    metsPrimaryParam own (paramValues c g k) =
      if fileParam file metsParam = [] then (mget g.str metsParam.flag).getD [] else fileParam file metsParam := by
  have hn : c.name ∈ metsParam.functions := by rcases hc with rfl | rfl | rfl <;> decide
  unfold metsPrimaryParam
  rw [show ("ext-NNNN-mets-descriptive-metadata".toList : Str) = metsParam.flag from rfl,
    C140_params_partial h metsParam_mem hn]
  rfl

/-- C144, over time: the configuration of the extensions is written again with each version (pkg/ocfl/objectbase.go:541,
pkg/extension/NNNN-mets.go:154-170).  After any number of commands, at least one, it says what the last one was given, however it was
configured. -/
theorem C144_over_time (known : Str → Bool) (own : Str) (runs : List (Command × ConfFile × Given × Conf))
    (hr : ∀ r ∈ runs, settle known r.1 r.2.1 r.2.2.1 = .ok r.2.2.2 ∧ (r.1 = .create ∨ r.1 = .add ∨ r.1 = .update))
    (last : Command × ConfFile × Given × Conf) (hl : runs.getLast? = some last) :
    runs.foldl (fun v r => metsPrimaryParam v (paramValues r.1 r.2.2.1 r.2.2.2)) own =
      if fileParam last.2.1 metsParam = [] then (mget last.2.2.1.str metsParam.flag).getD [] else fileParam last.2.1 metsParam := by
  obtain ⟨ini, rfl⟩ : ∃ ini, runs = ini ++ [last] := by
    have := List.getLast?_eq_some_iff.1 hl
    exact this
  obtain ⟨h1, h2⟩ := hr last (by simp)
  rw [List.foldl_append]
  exact C144_writing h1 h2 _

/-- C144, the effect: with nothing given, the METS document of the new version describes no primary metadata. -/
theorem C144_not_described {V : Type} (x : MetsEnv V) (m : ObjMeta V) (st : MetsSt) {known : Str → Bool} {c : Command}
    {file : ConfFile} {g : Given} {k : Conf} (h : settle known c file g = .ok k) (hc : c = .create ∨ c = .add ∨ c = .update)
    (own : Str) (hx : x.cfg.primary = metsPrimaryParam own (paramValues c g k)) (hg : mget g.str metsParam.flag = none)
    (hf : fileParam file metsParam = []) : metsPrimary x m st = .ok st := by
  unfold metsPrimary
  rw [if_pos]
  rw [hx, C144_writing h hc, if_pos hf, hg]; rfl

/-- C144 is violated: an `update` with nothing given does not use the place the object is configured with. -/
theorem C144_full_fails : ¬ C144_full := by
  intro h
  have h := h exAlgs .update {} {} _ "ead:metadata:ead.xml".toList rfl rfl rfl
  exact absurd h (by decide)

/-! ## C145: the digest algorithm chosen for a storage root is used for its objects -/

/-- C145 in full: objects added later have the algorithm chosen with `init`, unless another is asked for. -/
def C145_full : Prop :=
  ∀ (known : Str → Bool) (file : ConfFile) (gi ga : Given) (ki ka : Conf), settle known .init file gi = .ok ki →
    settle known .add file ga = .ok ka → mget ga.str "digest".toList = none → mget file.str .addDigest = none →
    newObjectDigest .add ka = some (ki.str .initDigest)

/-- C145 for `create`, and for `add` with the same choice.  Missing: `add` without it. -/
theorem C145_created_partial {known : Str → Bool} {file : ConfFile} {g : Given} {k : Conf} {d : Str} (hd : d ≠ [])
    (hg : mget g.str "digest".toList = some d) :
    (settle known .create file g = .ok k → newObjectDigest .create k = some d) ∧
    (settle known .add file g = .ok k → newObjectDigest .add k = some d) := by
  constructor
  · intro h
    show some (k.str .initDigest) = some d
    rw [C140_texts h (f := "digest") (.inl (by simp [textOptions])) hg hd]
  · intro h
    show some (k.str .addDigest) = some d
    rw [C140_texts h (f := "digest") (.inl (by simp [textOptions])) hg hd]

/-- C145, what `add` does without it: sha512, or what the file says for `add`, whatever the storage root was made with. -/
theorem C145_add {known : Str → Bool} {file : ConfFile} {g : Given} {k : Conf} (h : settle known .add file g = .ok k)
    (hg : mget g.str "digest".toList = none) :
    newObjectDigest .add k = some (if (mget file.str .addDigest).getD [] = [] then "sha512".toList else
      (mget file.str .addDigest).getD []) := by
  have e : flagStr .add g "digest" = [] := by unfold flagStr; rw [hg]; rfl
  show some (k.str .addDigest) = _
  rw [settle_eq h]
  by_cases hx : fileStr file .addDigest = []
  · have hm : mget file.str .addDigest = some [] := by
      unfold fileStr at hx
      cases hm : mget file.str .addDigest with
      | none => rw [hm] at hx; exact absurd hx (by decide)
      | some x => rw [hm] at hx; exact congrArg some hx
    have e1 : (settled .add file g).str .addDigest = "sha512".toList := by
      simp [settled, initConf, addTexts, overlay_str, ifEmpty_str, loadConf, e, hm]
    rw [e1, hm]; rfl
  · rw [settled_str (f := "digest") (.inl (by simp [textOptions])) file g (.inr hx), e, if_pos rfl]
    unfold fileStr
    cases hm : mget file.str .addDigest with
    | none => rfl
    | some x =>
      have : x ≠ [] := by intro hx0; exact hx (by unfold fileStr; rw [hm]; exact hx0)
      show some x = some (if x = [] then _ else x)
      rw [if_neg this]

/-- C145 is violated. -/
theorem C145_full_fails : ¬ C145_full := by
  intro h
  have h := h exAlgs {} { str := [("digest".toList, "sha256".toList)] } {} _ _ rfl rfl rfl rfl
  exact absurd h (by decide)

end Gocfl
