import Verif.Model.LayoutConfig
import Verif.Props.Layout
import Verif.Props.DirectClean

/-!
# C54, C70, C71: configuration of layouts across restarts, paths inside the storage root, announced layout
-/

namespace Gocfl

/-! ## C54 -/

/-- the mapping of ids to paths after writing the configuration and loading it again -/
def Survives (hashes : Str → Option (Str → Str)) (l : Layout) : Prop :=
  ∃ l', loadLayout hashes (writeConfig l) = .ok l' ∧ ∀ id, layoutPath hashes l' id = layoutPath hashes l id

/-- C54 in full: every layout that was loaded keeps its mapping when its configuration is written and loaded. -/
def C54_full : Prop :=
  ∀ (hashes : Str → Option (Str → Str)) (f : CfgFile) (l : Layout), loadLayout hashes f = .ok l → Survives hashes l

theorem newDC_idem (c : DCCfg) : newDC (newDC c) = newDC c := by
  obtain ⟨a, b, r, w, u, fo, t, s⟩ := c
  unfold newDC
  simp only [DCCfg.mk.injEq, and_true, true_and]
  refine ⟨?_, ?_, ?_⟩
  · by_cases h : a = 0 <;> simp [h]
  · by_cases h : b = 0 <;> simp [h]
  · by_cases h : fo = [] <;> simp [h]

theorem newDC_pos (c : DCCfg) : (newDC c).maxPathname ≠ 0 := by
  unfold newDC
  simp only
  split <;> omega

theorem readDC_new (f : CfgFile) : ∃ c, readDC f = newDC c := ⟨_, rfl⟩

theorem readDC_write (alg : Str) (c : DCCfg) : readDC (writeConfig (.directClean alg c)) = newDC c := by
  have e0 : (writeConfig (.directClean alg c)).int kOldMax = 0 := by rfl
  have e1 : (writeConfig (.directClean alg c)).int kOldSub = 0 := by rfl
  have e2 : (writeConfig (.directClean alg c)).int kMaxPath = c.maxPathname := by rfl
  have e3 : (writeConfig (.directClean alg c)).int kMaxSeg = c.maxSegment := by rfl
  have e4 : (writeConfig (.directClean alg c)).int kFbNumber = c.tuples := by rfl
  have e5 : (writeConfig (.directClean alg c)).int kFbSize = c.tupleSize := by rfl
  have e6 : (writeConfig (.directClean alg c)).str kRepl = c.repl := by rfl
  have e7 : (writeConfig (.directClean alg c)).str kWhite = c.white := by rfl
  have e8 : (writeConfig (.directClean alg c)).str kFbFolder = c.folder := by rfl
  have e9 : (writeConfig (.directClean alg c)).bool kUtf = c.utf := by rfl
  unfold readDC
  simp only [e0, e1, e2, e3, e4, e5, e6, e7, e8, e9, gt_iff_lt, Int.lt_irrefl, false_and, if_false]

/-- the layouts that a configuration file of the given name yields -/
theorem loadLayout_directClean {hashes : Str → Option (Str → Str)} {f : CfgFile} {alg : Str} {c : DCCfg}
    (h : loadLayout hashes f = .ok (.directClean alg c)) :
    alg = readDCAlg f ∧ c = readDC f ∧ ∃ g, hashes alg = some g := by
  have nh : ∀ {a : Str} {l l' : Layout}, needHash hashes a l = .ok l' → l = l' ∧ ∃ g, hashes a = some g := by
    intro a l l' h
    unfold needHash at h
    cases ha : hashes a with
    | none => rw [ha] at h; simp at h
    | some g => rw [ha] at h; cases h; exact ⟨rfl, g, rfl⟩
  unfold loadLayout at h
  split at h
  · cases h
  split at h
  · cases h
  split at h
  · exact absurd (nh h).1 (by simp)
  split at h
  · exact absurd (nh h).1 (by simp)
  split at h
  · cases h
  split at h
  · cases h
  split at h
  · exact absurd (nh h).1 (by simp)
  split at h
  · obtain ⟨h1, g, hg⟩ := nh h
    injection h1 with h1 h2
    subst h1; subst h2
    exact ⟨rfl, rfl, g, hg⟩
  · simp at h

/-- C54: the flat layouts and the direct-clean layout keep their mapping, for every configuration.  Missing: all layouts
with parameters from the OCFL catalogue and the pairtree layout. -/
theorem C54_survives_partial {hashes : Str → Option (Str → Str)} {f : CfgFile} {l : Layout}
    (h : loadLayout hashes f = .ok l)
    (hl : l = .flatDirect ∨ l = .pathDirect ∨ ∃ alg c, l = .directClean alg c) : Survives hashes l := by
  rcases hl with rfl | rfl | ⟨alg, c, rfl⟩
  · exact ⟨.flatDirect, rfl, fun _ => rfl⟩
  · refine ⟨.pathDirect, ?_, fun _ => rfl⟩
    unfold loadLayout
    rw [if_neg (by decide), if_pos (by decide)]
  · obtain ⟨h1, h2, g, hg⟩ := loadLayout_directClean h
    have hne : alg ≠ [] := by
      rw [h1]; unfold readDCAlg; split
      · decide
      · assumption
    have ha : readDCAlg (writeConfig (.directClean alg c)) = alg := by
      unfold readDCAlg
      have : (writeConfig (.directClean alg c)).str kFbAlg = alg := by rfl
      rw [this, if_neg hne]
    refine ⟨.directClean alg c, ?_, fun _ => rfl⟩
    have hn : (writeConfig (.directClean alg c)).name = nmDirectClean := rfl
    unfold loadLayout
    rw [hn, if_neg (by decide), if_neg (by decide), if_neg (by decide), if_neg (by decide), if_neg (by decide),
      if_neg (by decide), if_neg (by decide), if_pos rfl, ha, readDC_write]
    unfold needHash
    rw [hg]
    obtain ⟨c0, hc0⟩ := readDC_new f
    rw [h2, hc0, newDC_idem]

example : ∃ l, loadLayout (fun _ => some (fun _ => [])) ⟨nmDirectClean, [(kMaxPath, 100)], [(kRepl, "_".toList)], []⟩ = .ok l ∧
    ∃ alg c, l = .directClean alg c := ⟨_, by rfl, _, _, rfl⟩

/-- C54 is violated: the delimiter of the flat-omit-prefix layout is not written. -/
theorem C54_full_fails : ¬ C54_full := by
  intro h
  obtain ⟨l', h1, h2⟩ := h (fun _ => none) ⟨nmFlatOmit, [], [(kDelim, ":".toList)], []⟩ (.flatOmit ":".toList) (by rfl)
  have : l' = .flatOmit [] := by
    have : loadLayout (fun _ => none) (writeConfig (.flatOmit ":".toList)) = .ok (.flatOmit []) := by rfl
    rw [this] at h1; cases h1; rfl
  subst this
  have := h2 "a:b".toList
  simp only [layoutPath] at this
  rw [C49_empty_delimiter] at this
  revert this
  decide

/-- What becomes of the other layouts: after a restart the flat-omit-prefix layout maps every id to the empty path, the
n-tuple-omit-prefix layout crashes on every id, and the hash layouts and pairtree cannot be loaded at all, unless there is
a digest with the empty name. -/
theorem C54_lost (hashes : Str → Option (Str → Str)) (hh : hashes [] = none) :
    (∀ d, ∃ l, loadLayout hashes (writeConfig (.flatOmit d)) = .ok l ∧ ∀ id, layoutPath hashes l id = .ok []) ∧
    (∀ c, ∃ l, loadLayout hashes (writeConfig (.tupleOmit c)) = .ok l ∧
      ∀ id, layoutPath hashes l id = .error (.panic "integer divide by zero")) ∧
    (∀ alg c, loadLayout hashes (writeConfig (.hashId alg c)) = .error (.error "hash not found")) ∧
    (∀ alg c, loadLayout hashes (writeConfig (.hashed alg c)) = .error (.error "hash not found")) ∧
    (∀ alg n, loadLayout hashes (writeConfig (.pairtree alg n)) = .error (.error "hash not found")) := by
  have nh : ∀ l : Layout, needHash hashes [] l = .error (.error "hash not found") := by
    intro l; unfold needHash; rw [hh]
  refine ⟨fun d => ⟨.flatOmit [], by rfl, fun id => ?_⟩, fun c => ⟨.tupleOmit ⟨[], 0, 0, [], false⟩, by rfl, fun id => ?_⟩,
    fun alg c => ?_, fun alg c => ?_, fun alg n => ?_⟩
  · simp only [layoutPath]; rw [C49_empty_delimiter]
  · simp only [layoutPath, layout0007, if_true]
  · have : loadLayout hashes (writeConfig (.hashId alg c)) = needHash hashes [] (.hashId [] (newTupleCfg ⟨0, 0, false⟩)) := by
      rfl
    rw [this, nh]
  · have : loadLayout hashes (writeConfig (.hashed alg c)) = needHash hashes [] (.hashed [] (newTupleCfg ⟨0, 0, false⟩)) := by
      rfl
    rw [this, nh]
  · have : loadLayout hashes (writeConfig (.pairtree alg n)) = needHash hashes [] (.pairtree [] 0) := by
      rfl
    rw [this, nh]

/-! ## C70 -/

/-- C70 in full: every layout maps every non-empty id to a path inside the storage root. -/
def C70_full : Prop :=
  ∀ (hashes : Str → Option (Str → Str)) (f : CfgFile) (l : Layout) (id p : Str),
    (∀ a g, hashes a = some g → ∀ x, LowHexStr (g x) ∧ g x ≠ []) → id ≠ [] → loadLayout hashes f = .ok l →
    layoutPath hashes l id = .ok p → CleanRel p

theorem tupleShape_clean {size num : Nat} {d p : Str} (hs : size = 0 → num = 0) (hd : LowHexStr d) (hne : d ≠ [])
    (h : TupleShape size num false d p) : CleanRel p := by
  obtain ⟨ts, r, h1, h2, h3, h4⟩ := h
  refine ⟨ts ++ [d], by simp, ?_, by simpa using h4⟩
  intro t ht
  rcases List.mem_append.1 ht with ht | ht
  · apply lowHex_validComp
    · rintro rfl
      have := hs (h2 _ ht).symm
      rw [this] at h1
      rw [List.length_eq_zero_iff.1 h1] at ht; simp at ht
    · intro x hx; apply hd; rw [← h3]; exact List.mem_append_left _ (List.mem_flatten.2 ⟨t, ht, hx⟩)
  · simp at ht; subst ht; exact lowHex_validComp hne hd

/-- C70: the hash-and-id layout, the hashed layout without short object root and negative numbers, the pairtree layout
with positive length and the direct-clean layout with UTF encoding and without fallback, for every configuration and
id. -/
theorem C70_inside_root_partial {hashes : Str → Option (Str → Str)} {l : Layout} {id p : Str}
    (hx : ∀ a g, hashes a = some g → ∀ x, LowHexStr (g x) ∧ g x ≠ []) (hid : id ≠ [])
    (hl : (∃ alg c, l = .hashId alg (newTupleCfg c)) ∨
      (∃ alg c, l = .hashed alg (newTupleCfg c) ∧ c.shortObjectRoot = false ∧ 0 ≤ c.tupleSize ∧ 0 ≤ c.numberOfTuples ∧
        ∃ g, hashes alg = some g) ∨
      (∃ alg n, l = .pairtree alg n ∧ 0 < n) ∨
      (∃ alg c, l = .directClean alg c ∧ c.utf = true ∧ FallbackFree c id ∧ segsOf id ≠ []))
    (h : layoutPath hashes l id = .ok p) : CleanRel p := by
  have hex : ∀ a x, LowHexStr ((hashes a).getD (fun _ => []) x) := by
    intro a x
    cases ha : hashes a with
    | none => intro c hc; simp at hc
    | some g => exact (hx a g ha x).1
  rcases hl with ⟨alg, c, rfl⟩ | ⟨alg, c, rfl, hs, h1, h2, g, hg⟩ | ⟨alg, n, rfl, hn⟩ | ⟨alg, c, rfl, hu, hf, hseg⟩
  · exact (C47_distinct_paths_partial (hex alg) hid h h).1
  · simp only [layoutPath, hg, Option.getD_some] at h
    have hlen : (newTupleCfg c).tupleSize * (newTupleCfg c).numberOfTuples ≤ (g id).length := by
      unfold layout0004 at h
      split at h
      · simp at h
      · omega
    obtain ⟨q, q', e1, _, sh, _⟩ := C48_digest_path_partial (c := c) (hash := g) (id := id) (id' := id)
      (fun x => (hx alg g hg x).1) h1 h2 hlen hlen
    rw [e1] at h
    cases h
    rw [hs] at sh
    refine tupleShape_clean ?_ (hx alg g hg id).1 (hx alg g hg id).2 sh
    intro hz
    have hb := newTupleCfg_nonneg h1 h2
    have hb3 := (newTupleCfg_bounds c).2.2
    have : (newTupleCfg c).tupleSize = 0 := by omega
    rw [hb3] at this
    omega
  · exact ((C51_reversible_partial hn h h).1 hid).1
  · exact (C53_utf_safe_partial hu hf hseg h).1

/-- C70 is violated: the flat direct layout takes the id as path, whatever it is. -/
theorem C70_full_fails : ¬ C70_full := by
  intro h
  have h1 := h (fun _ => none) ⟨nmFlatDirect, [], [], []⟩ .flatDirect "../x".toList "../x".toList (by simp) (by decide)
    (by rfl) (by rfl)
  obtain ⟨cs, hne, hv, he⟩ := h1
  have h3 : splitOn '/' "../x".toList = cs := by
    rw [he]; exact splitOn_joinWith_noSep hne (fun m hm => (hv m hm).2.2.2)
  have h4 : "..".toList ∈ cs := by rw [← h3]; decide
  exact (hv _ h4).2.2.1 rfl

/-- the same for the layouts that omit prefixes -/
theorem C70_full_fails_prefix : layout0006 ":".toList "a:../../x".toList = "../../x".toList ∧
    layout0007 ⟨":".toList, 2, 1, "left".toList, false⟩ "a:../../x".toList = .ok "../../../x".toList := by decide

/-! ## C71 -/

/-- C71 in full: the layout announced in `ocfl_layout.json` is the one in use: a configuration file of that name is what
is written and loaded. -/
def C71_full : Prop := ∀ l : Layout, layoutFileName l = (writeConfig l).name

/-- C71: the layouts of the OCFL catalogue announce themselves. -/
theorem C71_announced_partial (l : Layout) (h : ∀ alg n, l ≠ .pairtree alg n) (h2 : l ≠ .pathDirect)
    (h3 : ∀ alg c, l ≠ .directClean alg c) : layoutFileName l = (writeConfig l).name := by
  cases l with
  | pairtree alg n => exact absurd rfl (h alg n)
  | pathDirect => exact absurd rfl h2
  | directClean alg c => exact absurd rfl (h3 alg c)
  | _ => rfl

/-- C71 is violated: the direct-clean layout announces the direct path layout, whose paths differ. -/
theorem C71_full_fails : ¬ C71_full := by
  intro h
  exact absurd (h (.directClean [] dcUTF)) (by decide)

end Gocfl
