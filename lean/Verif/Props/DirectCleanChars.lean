import Verif.Props.DirectClean
import Verif.Props.Names

/-!
# C92, C93: what direct-clean removes, and where its fallback puts a file

The specification is docs/NNNN-direct-clean-path-layout.md, "Procedure".
-/

namespace Gocfl

/-! ## C92: the characters of a result -/

/-- control characters and the punctuation that the documentation lists -/
def Dangerous (c : Char) : Prop :=
  c.toNat ≤ 0x1f ∨ c.toNat = 0x7f ∨ c ∈ "*?:[]\"<>|(){}&'!;#@".toList

/-- the white space that the documentation lists -/
def Space (c : Char) : Prop :=
  (9 ≤ c.toNat ∧ c.toNat ≤ 13) ∨ c.toNat ∈ [0x20, 0x85, 0xa0, 0x1680, 0x2028, 0x2029, 0x202f, 0x205f, 0x3000] ∨
    (0x2000 ≤ c.toNat ∧ c.toNat ≤ 0x200f)

theorem dcDanger_iff {c : Char} : dcDanger c = true ↔ Dangerous c := by
  unfold dcDanger Dangerous
  rw [Bool.or_eq_true, Bool.or_eq_true, decide_eq_true_eq, decide_eq_true_eq, List.contains_iff_mem, or_assoc]
  have : (c ∈ dcPunct) ↔ c ∈ "*?:[]\"<>|(){}&'!;#@".toList := by
    have h : dcPunct = "*?:[]\"<>|(){}&'!;#@".toList := by decide
    rw [h]
  rw [this]

theorem dcWhite_iff {c : Char} : dcWhite c = true ↔ Space c := by
  unfold dcWhite Space
  simp only [Bool.or_eq_true, decide_eq_true_eq, List.mem_cons, List.not_mem_nil, or_false]
  omega

theorem dcAll_iff {c : Char} : dcAll c = true ↔ Dangerous c ∨ Space c := by
  unfold dcAll
  rw [Bool.or_eq_true, dcDanger_iff, dcWhite_iff]

theorem mem_splitOn {sep x : Char} {s t : Str} (ht : t ∈ splitOn sep s) (hx : x ∈ t) : x ∈ s := by
  induction s generalizing t with
  | nil => rw [splitOn, List.mem_singleton] at ht; subst ht; cases hx
  | cons c s ih =>
    rw [splitOn] at ht
    split at ht
    · rcases List.mem_cons.1 ht with rfl | ht
      · cases hx
      · exact List.mem_cons_of_mem _ (ih ht hx)
    · split at ht
      · rename_i h
        exact absurd h (splitOn_ne_nil sep s)
      · rename_i h tl he
        rcases List.mem_cons.1 ht with rfl | ht
        · rcases List.mem_cons.1 hx with rfl | hx
          · simp
          · exact List.mem_cons_of_mem _ (ih (by rw [he]; simp) hx)
        · exact List.mem_cons_of_mem _ (ih (by rw [he]; simp [ht]) hx)

theorem mem_joinWith {sep x : Char} {l : List Str} (hx : x ∈ joinWith sep l) : x = sep ∨ ∃ t ∈ l, x ∈ t := by
  induction l with
  | nil => rw [joinWith] at hx; cases hx
  | cons a l ih =>
    cases l with
    | nil => rw [joinWith] at hx; exact Or.inr ⟨a, by simp, hx⟩
    | cons b l =>
      rw [joinWith] at hx
      · rcases List.mem_append.1 hx with hx | hx
        · exact Or.inr ⟨a, by simp, hx⟩
        · rcases List.mem_cons.1 hx with hx | hx
          · exact Or.inl hx
          · rcases ih hx with h | ⟨t, ht, h⟩
            · exact Or.inl h
            · exact Or.inr ⟨t, List.mem_cons_of_mem _ ht, h⟩

theorem mem_pathClean {x : Char} {p : Str} (h : x ∈ pathClean p) : x = '/' ∨ x = '.' ∨ x ∈ p := by
  have key : ∀ b, x ∈ joinWith '/' (cleanGo b [] (splitOn '/' p)) → x = '/' ∨ x = '.' ∨ x ∈ p := by
    intro b hb
    rcases mem_joinWith hb with h | ⟨t, ht, hx⟩
    · exact Or.inl h
    · rcases cleanGo_mem ht with ht | ht | rfl
      · cases ht
      · exact Or.inr (Or.inr (mem_splitOn ht hx))
      · have : x ∈ ['.', '.'] := hx
        simp at this
        exact Or.inr (Or.inl this)
  unfold pathClean at h
  split at h
  · rcases List.mem_cons.1 h with h | h
    · exact Or.inl h
    · exact key _ h
  · split at h
    · have : x ∈ ['.'] := h
      simp at this
      exact Or.inr (Or.inl this)
    · exact key _ h

theorem mem_pathJoin {x : Char} {l : List Str} (h : x ∈ pathJoin l) : x = '/' ∨ x = '.' ∨ ∃ t ∈ l, x ∈ t := by
  induction l with
  | nil => rw [pathJoin] at h; cases h
  | cons a l ih =>
    cases a with
    | nil =>
      rw [pathJoin] at h
      rcases ih h with h | h | ⟨t, ht, h⟩
      · exact Or.inl h
      · exact Or.inr (Or.inl h)
      · exact Or.inr (Or.inr ⟨t, by simp [ht], h⟩)
    | cons b a =>
      rw [pathJoin] at h
      · rcases mem_pathClean h with h | h | h
        · exact Or.inl h
        · exact Or.inr (Or.inl h)
        · rcases mem_joinWith h with h | h
          · exact Or.inl h
          · exact Or.inr (Or.inr h)
      · simp

/-- a digit of a digest, a full stop or a slash -/
def FbChar (x : Char) : Prop := x = '/' ∨ x = '.' ∨ LowHex x

theorem dcTuples_chars {c : DCCfg} {d : Str} (hd : LowHexStr d) (k : Nat) {r x : Str} (hr : ∀ y ∈ r, FbChar y)
    (h : dcTuples c d k r = .ok x) : ∀ y ∈ x, FbChar y := by
  induction k generalizing r with
  | zero => cases h; exact hr
  | succ k ih =>
    rw [dcTuples, res_bind_eq_ok] at h
    obtain ⟨t, ht, h⟩ := h
    refine ih ?_ h
    intro y hy
    rcases mem_pathJoin hy with hy | hy | ⟨s, hs, hys⟩
    · exact Or.inl hy
    · exact Or.inr (Or.inl hy)
    · simp only [List.mem_cons, List.not_mem_nil, or_false] at hs
      rcases hs with rfl | rfl
      · exact Or.inr (Or.inr (hd y (goSlice_mem ht hys)))
      · exact hr y hys

theorem dcFallback_chars {hash : Str → Str} {c : DCCfg} {f r : Str} (hx : ∀ x, LowHexStr (hash x))
    (h : dcFallback hash c f = .ok r) : ∀ y ∈ r, FbChar y ∨ y ∈ c.folder := by
  unfold dcFallback at h
  rw [res_bind_eq_ok] at h
  obtain ⟨ps, hps, h⟩ := h
  rw [res_bind_eq_ok] at h
  obtain ⟨t, ht, h⟩ := h
  have h1 : ∀ y ∈ ps, FbChar y := by
    unfold digestPieces at hps
    simp only at hps
    rw [res_bind_eq_ok] at hps
    obtain ⟨l, hl, hps⟩ := hps
    cases hps
    intro y hy
    rcases mem_joinWith hy with rfl | ⟨s, hs, hy⟩
    · exact Or.inl rfl
    · obtain ⟨i, _, hi⟩ := (resMapM_mem hl).2 s hs
      exact Or.inr (Or.inr (hx f y (goSlice_mem hi hy)))
  have h2 := dcTuples_chars (hx f) _ h1 ht
  simp only at h
  split at h
  · cases h
  · cases h
    intro y hy
    have hy : y ∈ pathClean (pathJoin [c.folder, t]) := (List.dropWhile_suffix _).subset hy
    rcases mem_pathClean hy with rfl | rfl | hy
    · exact Or.inl (Or.inl rfl)
    · exact Or.inl (Or.inr (Or.inl rfl))
    · rcases mem_pathJoin hy with rfl | rfl | ⟨s, hs, hys⟩
      · exact Or.inl (Or.inl rfl)
      · exact Or.inl (Or.inr (Or.inl rfl))
      · simp only [List.mem_cons, List.not_mem_nil, or_false] at hs
        rcases hs with rfl | rfl
        · exact Or.inr hys
        · exact Or.inl (h2 y hys)

theorem fbChar_plain {x : Char} (h : FbChar x) : ¬ Dangerous x ∧ ¬ Space x := by
  have : dcAll x = false := by
    rcases h with rfl | rfl | h
    · decide
    · decide
    · refine (alnum_not_all ?_).1
      unfold LowHex at h
      unfold alnum
      simp only [Bool.or_eq_true, decide_eq_true_eq]
      omega
  rw [← not_or, ← dcAll_iff, this]
  simp

theorem dcBuild_cases {hash : Str → Str} {c : DCCfg} {p r : Str} (h : dcBuild hash c p = .ok r) :
    (∃ f, dcFallback hash c f = .ok r) ∨ ∀ x ∈ r, x = '/' ∨ ∃ n ∈ segsOf p, x ∈ dcSeg c n := by
  unfold dcBuild at h
  split at h
  · exact Or.inl ⟨_, h⟩
  · rename_i segs hs
    split at h
    · exact Or.inl ⟨_, h⟩
    · cases h
      right
      intro x hx
      rcases mem_joinWith hx with hx | ⟨t, ht, hx⟩
      · exact Or.inl hx
      · right
        rw [(dcSegs_some hs).1] at ht
        unfold cleanedSegs at ht
        obtain ⟨ht, _⟩ := List.mem_filter.1 ht
        obtain ⟨n, hn, rfl⟩ := List.mem_map.1 ht
        exact ⟨n, hn, hx⟩

theorem encodeUTF_chars {c x : Char} (hc : c.toNat < 65536) (h : x ∈ encodeUTF c) : dcAll x = false := by
  unfold encodeUTF at h
  rcases List.mem_cons.1 h with rfl | h
  · decide
  · rcases List.mem_cons.1 h with rfl | h
    · decide
    · rw [fmtU_eq hc] at h
      refine (alnum_not_all ?_).1
      simp only [List.mem_cons, List.not_mem_nil, or_false] at h
      rcases h with rfl | rfl | rfl | rfl <;> exact upperDigit_alnum (by omega)

theorem dcSegUTF_chars {n : Str} {x : Char} (h : x ∈ dcSegUTF n) : dcAll x = false := by
  have hm : ∀ y ∈ (eqEncode n).flatMap (fun c => if dcAll c then encodeUTF c else [c]), dcAll y = false := by
    intro y hy
    obtain ⟨c, _, hy⟩ := List.mem_flatMap.1 hy
    split at hy
    · rename_i hc
      exact encodeUTF_chars (dcAll_small hc) hy
    · rename_i hc
      rw [List.mem_singleton] at hy
      subst hy
      exact Bool.eq_false_iff.2 hc
  unfold dcSegUTF at h
  simp only at h
  split at h
  · cases h
  · rename_i c r he
    rw [he] at hm
    split at h
    · rename_i hc
      rcases List.mem_append.1 h with h | h
      · refine encodeUTF_chars ?_ h
        rcases hc with rfl | hc
        · decide
        · unfold allPeriods at hc
          simp only [Bool.and_eq_true, List.all_cons, decide_eq_true_eq] at hc
          rw [hc.2.1]
          decide
      · exact hm x (by simp [h])
    · exact hm x h

/-- **C92** with UTF encoding: whatever the path, the result has no dangerous character and no white space, unless they
are in the name of the fallback folder. -/
theorem C92_utf {hash : Str → Str} {c : DCCfg} {p r : Str} (hu : c.utf = true) (hx : ∀ x, LowHexStr (hash x))
    (hfo : ∀ x ∈ c.folder, ¬ Dangerous x ∧ ¬ Space x) (h : dcBuild hash c p = .ok r) :
    ∀ x ∈ r, ¬ Dangerous x ∧ ¬ Space x := by
  intro x hxr
  rcases dcBuild_cases h with ⟨f, hf⟩ | hs
  · rcases dcFallback_chars hx hf x hxr with h | h
    · exact fbChar_plain h
    · exact hfo x h
  · rcases hs x hxr with rfl | ⟨n, _, hn⟩
    · exact fbChar_plain (Or.inl rfl)
    · unfold dcSeg at hn
      rw [if_pos hu] at hn
      rw [← not_or, ← dcAll_iff, dcSegUTF_chars hn]
      simp

/-- what a segment without UTF encoding is made of: characters of the replacement strings and harmless ones -/
theorem dcSegPlain_chars {repl white n : Str} {x : Char} (h : x ∈ dcSegPlain repl white n) :
    x ∈ repl ∨ (x ∈ white ∧ dcDanger x = false) ∨ (dcDanger x = false ∧ dcWhite x = false) := by
  have hm : ∀ y ∈ (n.flatMap (fun c => if dcWhite c then white else [c])).flatMap (fun c => if dcDanger c then repl else [c]),
      y ∈ repl ∨ (y ∈ white ∧ dcDanger y = false) ∨ (dcDanger y = false ∧ dcWhite y = false) := by
    intro y hy
    obtain ⟨c, hc, hy⟩ := List.mem_flatMap.1 hy
    split at hy
    · exact Or.inl hy
    · rename_i hd
      rw [List.mem_singleton] at hy
      subst hy
      have hd := Bool.eq_false_iff.2 hd
      obtain ⟨e, _, he⟩ := List.mem_flatMap.1 hc
      split at he
      · exact Or.inr (Or.inl ⟨he, hd⟩)
      · rename_i hw
        rw [List.mem_singleton] at he
        subst he
        exact Or.inr (Or.inr ⟨hd, Bool.eq_false_iff.2 hw⟩)
  unfold dcSegPlain at h
  simp only at h
  split at h
  · rcases List.mem_append.1 h with h | h
    · exact Or.inl h
    · exact hm x (dcTrim_mem (List.mem_of_mem_drop h))
  · exact hm x (dcTrim_mem h)

/-- **C92** without UTF encoding: whatever the path, the result has no dangerous character but those of the replacement
string and the fallback folder, and no white space but that of the configured strings. -/
theorem C92_plain {hash : Str → Str} {c : DCCfg} {p r : Str} (hu : c.utf = false) (hx : ∀ x, LowHexStr (hash x))
    (h : dcBuild hash c p = .ok r) :
    ∀ x ∈ r, (Dangerous x → x ∈ c.repl ∨ x ∈ c.folder) ∧ (Space x → x ∈ c.white ∨ x ∈ c.repl ∨ x ∈ c.folder) := by
  intro x hxr
  rcases dcBuild_cases h with ⟨f, hf⟩ | hs
  · rcases dcFallback_chars hx hf x hxr with h | h
    · exact ⟨fun hd => absurd hd (fbChar_plain h).1, fun hd => absurd hd (fbChar_plain h).2⟩
    · exact ⟨fun _ => Or.inr h, fun _ => Or.inr (Or.inr h)⟩
  · rcases hs x hxr with rfl | ⟨n, _, hn⟩
    · have := fbChar_plain (Or.inl rfl : FbChar '/')
      exact ⟨fun hd => absurd hd this.1, fun hd => absurd hd this.2⟩
    · unfold dcSeg at hn
      rw [hu, if_neg (by simp)] at hn
      rw [← dcDanger_iff, ← dcWhite_iff]
      rcases dcSegPlain_chars hn with h | ⟨h1, h2⟩ | ⟨h1, h2⟩
      · exact ⟨fun _ => Or.inl h, fun _ => Or.inr (Or.inl h)⟩
      · exact ⟨fun hd => absurd hd (by rw [h2]; simp), fun _ => Or.inl h1⟩
      · exact ⟨fun hd => absurd hd (by rw [h1]; simp), fun hd => absurd hd (by rw [h2]; simp)⟩

/-! ### The ends of a name -/

theorem dcTrim_ends {n : Str} (hn : '\n' ∉ n) :
    (∀ c ∈ (dcTrim n).head?, dcLead c = false) ∧ ∀ c ∈ (dcTrim n).getLast?, dcTrail c = false := by
  have hm : '\n' ∉ ((n.dropWhile dcLead).reverse.dropWhile dcTrail).reverse := by
    intro h
    rw [List.mem_reverse] at h
    have := mem_dropWhile h
    rw [List.mem_reverse] at this
    exact hn (mem_dropWhile this)
  unfold dcTrim
  simp only
  rw [if_neg hm]
  constructor
  · intro c hc
    have hpre : ((n.dropWhile dcLead).reverse.dropWhile dcTrail).reverse <+: n.dropWhile dcLead := by
      have := List.dropWhile_suffix (l := (n.dropWhile dcLead).reverse) dcTrail
      have := List.reverse_prefix.2 this
      rwa [List.reverse_reverse] at this
    obtain ⟨t, ht⟩ := hpre
    have hh : (n.dropWhile dcLead).head? = some c := by
      rw [← ht]
      have hc : _ = some c := hc
      rw [List.head?_append, hc]
      rfl
    cases hd : n.dropWhile dcLead with
    | nil => rw [hd] at hh; cases hh
    | cons a l =>
      rw [hd] at hh
      cases hh
      have := List.head_dropWhile_not dcLead (by rw [hd]; simp : n.dropWhile dcLead ≠ [])
      simp only [hd, List.head_cons] at this
      simpa using this
  · intro c hc
    rw [List.getLast?_reverse] at hc
    cases hd : (n.dropWhile dcLead).reverse.dropWhile dcTrail with
    | nil => rw [hd] at hc; cases hc
    | cons a l =>
      rw [hd] at hc
      cases hc
      have := List.head_dropWhile_not dcTrail (by rw [hd]; simp : (n.dropWhile dcLead).reverse.dropWhile dcTrail ≠ [])
      simp only [hd, List.head_cons] at this
      simpa using this

/-- **C92** without UTF encoding, no fallback: no name in the result begins with a hyphen, a tilde or white space or ends
with white space, if the replacement string has none of them (and no line feed). -/
theorem C92_ends {hash : Str → Str} {c : DCCfg} {p r : Str} (hu : c.utf = false) (hf : FallbackFree c p)
    (hrs : '/' ∉ c.repl) (hws : '/' ∉ c.white)
    (hr : ∀ x ∈ c.repl, x ≠ '-' ∧ x ≠ '~' ∧ dcTrail x = false) (h : dcBuild hash c p = .ok r) :
    r = [] ∨ ∀ t ∈ splitOn '/' r, (∀ x ∈ t.head?, x ≠ '-' ∧ x ≠ '~' ∧ ¬ Space x) ∧ ∀ x ∈ t.getLast?, ¬ Space x := by
  obtain ⟨segs, h1, h2⟩ := hf
  obtain ⟨e, _⟩ := dcSegs_some h1
  rw [dcBuild_free ⟨segs, h1, h2⟩] at h
  have hrr : r = joinWith '/' segs := by rw [e]; exact (Except.ok.inj h).symm
  have hwt : ∀ x, dcTrail x = false → ¬ Space x := by
    intro x hx hs
    unfold dcTrail at hx
    rw [dcWhite_iff.2 hs] at hx
    cases hx
  have hends : ∀ t ∈ segs, '/' ∉ t ∧ (∀ x ∈ t.head?, x ≠ '-' ∧ x ≠ '~' ∧ ¬ Space x) ∧ ∀ x ∈ t.getLast?, ¬ Space x := by
    intro t ht
    rw [e] at ht
    unfold cleanedSegs at ht
    obtain ⟨ht, _⟩ := List.mem_filter.1 ht
    obtain ⟨n, hn, rfl⟩ := List.mem_map.1 ht
    have hns := (segsOf_mem (p := p) hn).2
    unfold dcSeg
    rw [hu, if_neg (by simp)]
    unfold dcSegPlain
    simp only
    generalize hn2 : (n.flatMap (fun c' => if dcWhite c' then c.white else [c'])).flatMap
        (fun c' => if dcDanger c' then c.repl else [c']) = n2
    have hnl : '\n' ∉ n2 := by
      rw [← hn2]
      intro hx
      obtain ⟨y, _, hx⟩ := List.mem_flatMap.1 hx
      split at hx
      · exact absurd (hr _ hx).2.2 (by decide)
      · rename_i hy
        rw [List.mem_singleton] at hx
        subst hx
        exact hy (by decide)
    have hsl : '/' ∉ dcTrim n2 := by
      intro hx
      have hx := dcTrim_mem hx
      rw [← hn2] at hx
      rcases flatMap_repl_mem hx with hx | hx
      · exact hrs hx
      · rcases flatMap_repl_mem hx with hx | hx
        · exact hws hx
        · exact hns hx
    obtain ⟨hl, ht⟩ := dcTrim_ends hnl
    have hlead : ∀ x, dcLead x = false → x ≠ '-' ∧ x ≠ '~' ∧ ¬ Space x := by
      intro x hx
      unfold dcLead at hx
      simp only [Bool.or_eq_false_iff, decide_eq_false_iff_not] at hx
      refine ⟨hx.1.1, hx.1.2, ?_⟩
      rw [← dcWhite_iff, hx.2]
      simp
    split
    · rename_i hp
      have hdot : ∀ x ∈ dcTrim n2, x = '.' := by
        unfold allPeriods at hp
        simp only [Bool.and_eq_true, List.all_eq_true, decide_eq_true_eq] at hp
        exact hp.2
      have hall : ∀ x ∈ c.repl ++ (dcTrim n2).drop 1, x ≠ '-' ∧ x ≠ '~' ∧ ¬ Space x := by
        intro x hx
        rcases List.mem_append.1 hx with hx | hx
        · exact ⟨(hr x hx).1, (hr x hx).2.1, hwt x (hr x hx).2.2⟩
        · rw [hdot x (List.mem_of_mem_drop hx)]
          exact ⟨by decide, by decide, by rw [← dcWhite_iff]; decide⟩
      refine ⟨?_, fun x hx => hall x (List.mem_of_mem_head? hx), fun x hx => (hall x (List.mem_of_getLast? hx)).2.2⟩
      rw [List.mem_append, not_or]
      exact ⟨hrs, fun hx => hsl (List.mem_of_mem_drop hx)⟩
    · exact ⟨hsl, fun x hx => hlead x (hl x hx), fun x hx => hwt x (ht x hx)⟩
  by_cases hne : segs = []
  · left; rw [hrr, hne]; rfl
  · right
    rw [hrr, splitOn_joinWith_noSep hne (fun m hm => (hends m hm).1)]
    exact fun t ht => (hends t ht).2

example : dcBuild (fun _ => []) dcPlain " -a*b\n/~c d ".toList = .ok "a_b/c d".toList ∧
    dcBuild (fun _ => []) dcUTF " -a*b\n/~c d ".toList = .ok "=u0020-a=u002Ab=u000A/=u007Ec=u0020d=u0020".toList := by decide

/-! ## C93: where the fallback puts a file -/

/-- "add folder separator after `maxPathSegmentLen` until all parts are smaller or equal" -/
def docPieces (max : Nat) (d : Str) : List Str :=
  (List.range (d.length / max + (if 0 < d.length % max then 1 else 0))).map (fun i => (d.drop (i * max)).take max)

/-- "take the first `numberOfFallbackTuples * fallbackTupleSize` characters from digest, split the characters in
`numberOfFallbackTuples` parts of `fallbackTupleSize` characters" -/
def docTuples (n size : Nat) (d : Str) : List Str := (List.range n).map (fun i => (d.drop (i * size)).take size)

/-- the fallback function of the documentation -/
def docFallback (hash : Str → Str) (c : DCCfg) (p : Str) : Str :=
  joinWith '/' (c.folder :: (docTuples c.tuples.toNat c.tupleSize.toNat (hash p) ++ docPieces c.maxSegment.toNat (hash p)))

/-- a configuration as the documentation asks for it -/
structure DocCfg (hash : Str → Str) (c : DCCfg) : Prop where
  hex : ∀ x, LowHexStr (hash x) ∧ hash x ≠ []
  segment : 0 < c.maxSegment
  folder : CleanRel c.folder
  tuples : 0 ≤ c.tuples
  tupleSize : 0 < c.tupleSize
  enough : ∀ x, c.tuples * c.tupleSize ≤ (hash x).length

/-- **C93, in full** (false): a path for which a name or the whole result is too long is put where the documentation
says. -/
def C93_full : Prop :=
  ∀ (hash : Str → Str) (c : DCCfg) (p r : Str), DocCfg hash c → ¬ FallbackFree c p → dcBuild hash c p = .ok r →
    r = docFallback hash c p

theorem docPieces_eq {max : Int} (hm : 0 < max) {d ps : Str} (h : digestPieces max d = .ok ps) :
    ps = joinWith '/' (docPieces max.toNat d) := by
  unfold digestPieces at h
  simp only at h
  rw [res_bind_eq_ok] at h
  obtain ⟨l, hl, h⟩ := h
  cases h
  obtain ⟨m, rfl⟩ := Int.eq_ofNat_of_zero_le (le_of_lt hm)
  have hdiv : (d.length : Int).tdiv (m : Int) = ((d.length / m : Nat) : Int) := rfl
  have hmod : (d.length : Int).tmod (m : Int) = ((d.length % m : Nat) : Int) := rfl
  rw [hdiv, hmod] at hl
  have hn : (((d.length / m : Nat) : Int) + (if ((d.length % m : Nat) : Int) > 0 then 1 else 0)).toNat =
      d.length / m + (if 0 < d.length % m then 1 else 0) := by
    generalize d.length / m = q
    generalize d.length % m = t
    split <;> split <;> omega
  rw [hn] at hl
  congr 1
  unfold docPieces
  rw [Int.toNat_natCast]
  generalize d.length / m + (if 0 < d.length % m then 1 else 0) = k at hl
  have key : ∀ (is : List Nat) (l : List Str), is.mapM (fun (i : Nat) => goSlice d ((i : Int) * (m : Int))
      (min (((i : Int) + 1) * (m : Int)) (d.length : Int))) = .ok l → l = is.map (fun i => (d.drop (i * m)).take m) := by
    intro is
    induction is with
    | nil => intro l h; cases h; rfl
    | cons i is ih =>
      intro l h
      rw [List.mapM_cons, res_bind_eq_ok] at h
      obtain ⟨a, ha, h⟩ := h
      rw [res_bind_eq_ok] at h
      obtain ⟨b, hb, h⟩ := h
      cases h
      rw [List.map_cons, ih b hb]
      congr 1
      obtain ⟨_, _, _, rfl⟩ := goSlice_ok ha
      have e1 : ((i : Int) * (m : Int)) = ((i * m : Nat) : Int) := by push_cast; rfl
      have e2 : (((i : Int) + 1) * (m : Int)) = ((i * m + m : Nat) : Int) := by push_cast; ring
      rw [e1, e2, Int.toNat_natCast]
      by_cases hle : i * m + m ≤ d.length
      · rw [min_eq_left (by exact_mod_cast hle)]
        congr 1
        omega
      · rw [min_eq_right (by omega)]
        rw [List.take_of_length_le, List.take_of_length_le]
        · rw [List.length_drop]; omega
        · rw [List.length_drop]; omega
  exact key _ l hl

/-- what the sub folders are: one character further each time -/
theorem dcTuples_eq {c : DCCfg} {d : Str} (hd : LowHexStr d) (hs : 0 < c.tupleSize) (k : Nat) {r x : Str} (hr : CleanRel r)
    (h : dcTuples c d k r = .ok x) :
    x = joinWith '/' ((List.range k).map (fun i => (d.drop i).take c.tupleSize.toNat) ++ [r]) ∧ CleanRel x := by
  induction k generalizing r with
  | zero => cases h; exact ⟨by simp [joinWith], hr⟩
  | succ k ih =>
    rw [dcTuples, res_bind_eq_ok] at h
    obtain ⟨t, ht, h⟩ := h
    have hx := goSlice_lowHex hd ht
    have hlen := goSlice_length ht
    have hne : t ≠ [] := by
      rintro rfl
      simp only [List.length_nil] at hlen
      omega
    have htc : CleanRel t := ⟨[t], by simp, by simpa using lowHex_validComp hne hx, by simp [joinWith]⟩
    have hj := pathJoin_two htc hr
    have hjc : CleanRel (t ++ '/' :: r) := by
      obtain ⟨ds, h3, h4, rfl⟩ := hr
      refine ⟨t :: ds, by simp, ?_, ?_⟩
      · intro y hy
        rcases List.mem_cons.1 hy with rfl | hy
        · exact lowHex_validComp hne hx
        · exact h4 y hy
      · have := joinWith_append (sep := '/') (a := [t]) (b := ds) (by simp) h3
        rw [List.singleton_append] at this
        rw [this]
        simp [joinWith]
    rw [hj] at h
    obtain ⟨h1, h2⟩ := ih hjc h
    refine ⟨?_, h2⟩
    obtain ⟨_, _, _, hte⟩ := goSlice_ok ht
    have hte' : t = (d.drop k).take c.tupleSize.toNat := by
      rw [hte, Int.toNat_natCast]
      congr 1
      omega
    rw [h1, List.range_succ, List.map_append, List.map_singleton, ← hte', List.append_assoc]
    by_cases hk : (List.range k).map (fun i => (d.drop i).take c.tupleSize.toNat) = []
    · rw [hk]
      simp [joinWith]
    · rw [joinWith_append hk (by simp), joinWith_append hk (by simp)]
      simp [joinWith]

/-- **C93** for the fallback function with sub folders of one character, or at most one of them: it is that of the
documentation. -/
theorem C93_fallback_partial {hash : Str → Str} {c : DCCfg} {f r : Str} (hd : DocCfg hash c)
    (hsmall : c.tuples ≤ 1 ∨ c.tupleSize = 1) (h : dcFallback hash c f = .ok r) : r = docFallback hash c f := by
  unfold dcFallback at h
  rw [res_bind_eq_ok] at h
  obtain ⟨ps, hps, h⟩ := h
  rw [res_bind_eq_ok] at h
  obtain ⟨x, ht, h⟩ := h
  obtain ⟨hx, hne⟩ := hd.hex f
  have b1 := (digestPieces_bounded hd.segment hx hne hps).clean
  obtain ⟨e1, b2⟩ := dcTuples_eq hx hd.tupleSize _ b1 ht
  have hp := docPieces_eq hd.segment hps
  have hdt : (List.range c.tuples.toNat).map (fun i => ((hash f).drop i).take c.tupleSize.toNat) =
      docTuples c.tuples.toNat c.tupleSize.toNat (hash f) := by
    unfold docTuples
    apply List.map_congr_left
    intro i hi
    rw [List.mem_range] at hi
    rcases hsmall with hs | hs
    · have : i = 0 := by omega
      subst this
      simp
    · rw [hs]
      simp
  have hpn : docPieces c.maxSegment.toNat (hash f) ≠ [] := by
    intro h0
    rw [h0] at hp
    subst hp
    exact b1.ne_nil rfl
  have e2 : x = joinWith '/' (docTuples c.tuples.toNat c.tupleSize.toNat (hash f) ++
      docPieces c.maxSegment.toNat (hash f)) := by
    rw [e1, hdt, hp]
    by_cases hk : docTuples c.tuples.toNat c.tupleSize.toNat (hash f) = []
    · rw [hk]
      simp [joinWith]
    · rw [joinWith_append hk (by simp), joinWith_append hk hpn]
      simp [joinWith]
  have hall : docTuples c.tuples.toNat c.tupleSize.toNat (hash f) ++ docPieces c.maxSegment.toNat (hash f) ≠ [] := by
    simp [hpn]
  have e3 : docFallback hash c f = c.folder ++ '/' :: x := by
    unfold docFallback
    have := joinWith_append (sep := '/') (a := [c.folder]) (by simp) hall
    rw [List.singleton_append] at this
    rw [this, e2]
    simp [joinWith]
  have hclean : CleanRel (c.folder ++ '/' :: x) := by
    obtain ⟨cs, c1, c2, c3⟩ := hd.folder
    obtain ⟨ds, d1, d2, d3⟩ := b2
    refine ⟨cs ++ ds, by simp [c1], ?_, by rw [joinWith_append c1 d1, c3, d3]⟩
    intro y hy
    rcases List.mem_append.1 hy with hy | hy
    · exact c2 y hy
    · exact d2 y hy
  simp only at h
  rw [pathJoin_two hd.folder b2, hclean.clean] at h
  have htrim : trimLeft (c.folder ++ '/' :: x) "/".toList = c.folder ++ '/' :: x := by
    obtain ⟨cs, h1, h2, h3⟩ := hd.folder
    have : ∃ y ys, c.folder = y :: ys ∧ y ≠ '/' := by
      rw [h3]
      cases cs with
      | nil => exact absurd rfl h1
      | cons a cs =>
        obtain ⟨n1, _, _, n4⟩ := h2 a (by simp)
        cases a with
        | nil => exact absurd rfl n1
        | cons y a =>
          simp only [List.mem_cons, not_or] at n4
          cases cs with
          | nil => exact ⟨y, a, by simp [joinWith], fun e => n4.1 e.symm⟩
          | cons b cs => exact ⟨y, _, by rw [joinWith]; rfl, fun e => n4.1 e.symm⟩
    obtain ⟨y, ys, he, hy⟩ := this
    rw [he]
    unfold trimLeft
    rw [List.cons_append, List.dropWhile_cons, if_neg]
    simpa using hy
  rw [htrim] at h
  split at h
  · cases h
  · cases h
    exact e3.symm

/-- **C93** for a path with a name that is too long -/
theorem C93_long_name_partial {hash : Str → Str} {c : DCCfg} {p r : Str} (hd : DocCfg hash c)
    (hsmall : c.tuples ≤ 1 ∨ c.tupleSize = 1) (hlong : ∃ n ∈ segsOf p, (byteLen (dcSeg c n) : Int) > c.maxSegment)
    (h : dcBuild hash c p = .ok r) : r = docFallback hash c p := by
  have hnone : dcSegs c (splitOn '/' p) = none := by
    obtain ⟨n, hn, hl⟩ := hlong
    have hne := (segsOf_mem hn).1
    unfold segsOf at hn
    have hn := (List.mem_filter.1 hn).1
    generalize splitOn '/' p = ns at hn
    induction ns with
    | nil => cases hn
    | cons a ns ih =>
      rw [dcSegs]
      rcases List.mem_cons.1 hn with rfl | hn
      · rw [if_neg hne, if_pos hl]
      · rw [ih hn]
        split
        · rfl
        · split <;> rfl
  unfold dcBuild at h
  rw [hnone] at h
  exact C93_fallback_partial hd hsmall h

/-- a digest of eight digits, the length of its argument in front -/
def dcHash (p : Str) : Str := (if p.length % 2 = 0 then '0' else '1') :: "2345678".toList

def dcShort : DCCfg := { dcUTF with maxSegment := 4, tuples := 2, tupleSize := 1 }

theorem dcHash_hex (x : Str) : LowHexStr (dcHash x) ∧ dcHash x ≠ [] := by
  unfold dcHash
  split
  · refine ⟨?_, by simp⟩
    intro c hc
    have : ∀ c ∈ '0' :: "2345678".toList, LowHex c := by unfold LowHex; decide
    exact this c hc
  · refine ⟨?_, by simp⟩
    intro c hc
    have : ∀ c ∈ '1' :: "2345678".toList, LowHex c := by unfold LowHex; decide
    exact this c hc

theorem dcShort_doc (n s l : Int) (h1 : 0 ≤ n) (h2 : 0 < s) (h3 : n * s ≤ 8) :
    DocCfg dcHash { dcShort with tuples := n, tupleSize := s, maxPathname := l } := by
  refine ⟨dcHash_hex, (by decide : (0 : Int) < 4), ⟨["fallback".toList], by simp, ?_, rfl⟩, h1, h2, ?_⟩
  · intro c hc
    rw [List.mem_singleton] at hc
    subst hc
    exact ⟨by decide, by decide, by decide, by decide⟩
  · intro x
    have : (dcHash x).length = 8 := by unfold dcHash; split <;> rfl
    rw [this]
    exact h3

example : dcBuild dcHash dcShort "a/longer".toList = .ok "fallback/0/2/0234/5678".toList := by decide

/-- **C93 fails** with two sub folders of two characters: they overlap. -/
theorem C93_full_fails : ¬ C93_full := by
  intro hf
  have := hf dcHash { dcShort with tuples := 2, tupleSize := 2, maxPathname := 100 } "a/longer".toList
    "fallback/02/23/0234/5678".toList (dcShort_doc 2 2 100 (by decide) (by decide) (by decide)) (by
      rintro ⟨segs, h, _⟩
      have : dcSegs { dcShort with tuples := 2, tupleSize := 2, maxPathname := 100 } (splitOn '/' "a/longer".toList) = none := by decide
      rw [this] at h
      cases h) (by decide)
  exact absurd this (by decide)

/-- **C93 fails** for a path that is too long as a whole: the digest is that of the cleaned path. -/
theorem C93_full_fails_cleaned : ¬ C93_full := by
  intro hf
  have := hf dcHash { dcShort with tuples := 1, tupleSize := 1, maxPathname := 22, utf := false }
    "abcd/~efg/abcd/abcd/abcd/abcd".toList "fallback/0/0234/5678".toList
    (by
      have h := dcShort_doc 1 1 22 (by decide) (by decide) (by decide)
      exact ⟨h.hex, h.segment, h.folder, h.tuples, h.tupleSize, h.enough⟩) (by
      rintro ⟨segs, h, hl⟩
      have he : dcSegs { dcShort with tuples := 1, tupleSize := 1, maxPathname := 22, utf := false }
        (splitOn '/' "abcd/~efg/abcd/abcd/abcd/abcd".toList) =
          some ["abcd".toList, "efg".toList, "abcd".toList, "abcd".toList, "abcd".toList, "abcd".toList] := by decide
      rw [he] at h
      cases h
      exact absurd hl (by decide)) (by decide)
  exact absurd this (by decide)

end Gocfl
