import Verif.Model.ObjCheck
import Verif.Props.Determinism
import Verif.Props.PathChecks
import Verif.Props.Stored

/-! # What validation of an object accepts -/

namespace Gocfl

/-- no error is reported; warnings may be -/
def NoErrors (f : List Fnd) : Prop := ∀ x ∈ f, x.isErr = false

theorem noErrors_append {a b : List Fnd} : NoErrors (a ++ b) ↔ NoErrors a ∧ NoErrors b := by
  unfold NoErrors
  simp only [List.mem_append, or_imp, forall_and]

/-! ## The versions of an inventory that validates -/

theorem digitsVal_zero_cons (r : Str) : digitsVal ('0' :: r) = digitsVal r := by
  unfold digitsVal
  simp [Nat.ofDigitChars]

theorem digitsVal_trim (r : Str) (h : r.all Char.isDigit = true) : digitsVal (trimLeft r "v0".toList) = digitsVal r := by
  induction r with
  | nil => rfl
  | cons c r ih =>
    simp only [List.all_cons, Bool.and_eq_true] at h
    unfold trimLeft
    rw [List.dropWhile_cons]
    split
    · rename_i hc
      have : c = '0' := by
        have hc' : c ∈ "v0".toList := by simpa using hc
        have hc'' : c = 'v' ∨ c = '0' := by
          have : "v0".toList = ['v', '0'] := by decide
          rw [this] at hc'; simpa using hc'
        rcases hc'' with rfl | rfl
        · exact absurd h.1 (by decide)
        · rfl
      subst this
      rw [digitsVal_zero_cons]
      exact ih h.2
    · rfl

/-- both readings of a version name agree -/
theorem vNumber_of_verNumber {k : Str} {n : Int} (hk : zeroName k = true ∨ noZeroName k = true)
    (h : verNumber k = some n) : vNumber k = some n := by
  obtain ⟨r, rfl, hr⟩ : ∃ r, k = 'v' :: r ∧ isDigits r = true := by
    rcases hk with hk | hk
    · unfold zeroName at hk
      split at hk
      · rename_i r
        refine ⟨_, rfl, ?_⟩
        unfold isDigits at hk ⊢
        simp only [Bool.and_eq_true] at hk
        simp only [List.all_cons, hk.2, Bool.and_true, List.isEmpty_cons]
        decide
      · cases hk
    · unfold noZeroName at hk
      split at hk
      · rename_i c r
        refine ⟨_, rfl, ?_⟩
        unfold isDigits
        simp only [Bool.and_eq_true] at hk
        simp [hk.1.1]
        simpa using hk.2
      · cases hk
  have hall : r.all Char.isDigit = true := by
    unfold isDigits at hr; simp only [Bool.and_eq_true] at hr; exact hr.2
  have ht : verNumber ('v' :: r) = atoi (trimLeft r "v0".toList) := rfl
  rw [ht] at h
  have hs : ∀ c ∈ trimLeft r "v0".toList, c.isDigit = true := by
    intro c hc
    exact List.all_eq_true.1 hall c ((List.dropWhile_sublist _).subset hc)
  have hd : atoi (trimLeft r "v0".toList) = if isDigits (trimLeft r "v0".toList) then
      some (digitsVal (trimLeft r "v0".toList) : Int) else none := by
    unfold atoi
    split
    · rename_i heq; exact absurd (hs '+' (by rw [heq]; simp)) (by decide)
    · rename_i heq; exact absurd (hs '-' (by rw [heq]; simp)) (by decide)
    · rfl
  rw [hd] at h
  split at h
  · rw [digitsVal_trim r hall] at h
    simp only [vNumber, hr, if_true]
    exact h
  · cases h

theorem padFold_noErrors {l : List Str} {pad : Int} (h : NoErrors (padFold pad l).2) {k : Str} (hk : k ∈ l) {n : Int}
    (hn : verNumber k = some n) : zeroName k = true ∨ noZeroName k = true := by
  induction l generalizing pad with
  | nil => simp at hk
  | cons a l ih =>
    rw [padFold] at h
    cases ha : verNumber a with
    | none =>
      simp only [ha] at h
      rcases List.mem_cons.1 hk with rfl | hk
      · rw [hn] at ha; cases ha
      · exact ih h hk
    | some m =>
      simp only [ha, noErrors_append] at h
      rcases List.mem_cons.1 hk with rfl | hk
      · by_contra hc
        push Not at hc
        have := h.1
        unfold padStep at this
        rw [if_neg hc.1, if_neg hc.2] at this
        have := this _ (List.mem_singleton.2 rfl)
        simp [err] at this
      · exact ih h.2 hk

/-- what the versions of an inventory that validates are like -/
structure GoodVersions (inv : Inv) : Prop where
  num : ∀ k ∈ mkeys inv.versions, ∃ n, verNumber k = some n ∧ vNumber k = some n
  seq : ∃ N : Nat, ((mkeys inv.versions).filterMap verNumber).Perm ((List.range N).map (fun k => ((k + 1 : Nat) : Int)))
  mem : ∀ k, k ∈ getVersionStrings inv ↔ k ∈ mkeys inv.versions
  head : inv.head ∈ mkeys inv.versions
  last : ∀ k ∈ mkeys inv.versions, versionLessOrEqual inv k inv.head = true

theorem filterMap_nodup_inj {α β : Type} {f : α → Option β} : ∀ {l : List α}, (l.filterMap f).Nodup →
    ∀ {a b : α} {y : β}, a ∈ l → b ∈ l → f a = some y → f b = some y → a = b := by
  intro l
  induction l with
  | nil => intro _ a b y h; simp at h
  | cons x l ih =>
    intro hn a b y ha hb fa fb
    rw [List.filterMap_cons] at hn
    cases hx : f x with
    | none =>
      rw [hx] at hn
      rcases List.mem_cons.1 ha with rfl | ha
      · rw [hx] at fa; cases fa
      rcases List.mem_cons.1 hb with rfl | hb
      · rw [hx] at fb; cases fb
      exact ih hn ha hb fa fb
    | some z =>
      rw [hx] at hn
      simp only [List.nodup_cons, List.mem_filterMap, not_exists, not_and] at hn
      rcases List.mem_cons.1 ha with rfl | ha <;> rcases List.mem_cons.1 hb with rfl | hb
      · rfl
      · rw [hx] at fa; cases fa; exact absurd fb (hn.1 _ hb)
      · rw [hx] at fb; cases fb; exact absurd fa (hn.1 _ ‹a ∈ l›)
      · exact ih hn.2 ha hb fa fb

theorem mapM_eq_map {l : List Str} {f : Str → Option Int} (h : ∀ k ∈ l, ∃ n, f k = some n) :
    l.mapM f = some (l.map (fun k => (f k).getD 0)) := by
  induction l with
  | nil => rfl
  | cons a l ih =>
    obtain ⟨n, hn⟩ := h a (by simp)
    rw [List.mapM_cons, ih (fun k hk => h k (by simp [hk])), hn]
    simp [hn]

/-- the scan for the most recent version ends at a version that no other exceeds -/
theorem recent_fold_max {inv : Inv} (l : List Str) (hv : ∀ k ∈ l, k ≠ [] ∧ ∃ n, versionValue inv k = some n) (r : Str)
    (hr : r ≠ [] ∧ ∃ n, versionValue inv r = some n) :
    let b := l.foldl (fun rec ver => if rec = [] then ver else if !versionLessOrEqual inv ver rec then ver else rec) r
    (b ∈ r :: l) ∧ ∀ k ∈ r :: l, versionLessOrEqual inv k b = true := by
  induction l generalizing r with
  | nil =>
    obtain ⟨_, n, hn⟩ := hr
    refine ⟨by simp, ?_⟩
    intro k hk
    rw [List.mem_singleton] at hk; subst hk
    simp [versionLessOrEqual, hn]
  | cons x l ih =>
    obtain ⟨hx0, m, hm⟩ := hv x (by simp)
    obtain ⟨hr0, n, hn⟩ := hr
    simp only [List.foldl_cons, if_neg hr0]
    have hle : versionLessOrEqual inv x r = decide (m ≤ n) := by simp [versionLessOrEqual, hm, hn]
    rw [hle]
    have tr : ∀ {a b c : Str}, versionLessOrEqual inv a b = true → versionLessOrEqual inv b c = true →
        versionLessOrEqual inv a c = true := by
      intro a b c h1 h2
      unfold versionLessOrEqual at *
      cases ha : versionValue inv a <;> cases hb : versionValue inv b <;> cases hc : versionValue inv c <;>
        simp [ha, hb, hc] at *
      omega
    by_cases hmn : m ≤ n
    · simp only [hmn, decide_true, Bool.not_true, Bool.false_eq_true, if_false]
      obtain ⟨h1, h2⟩ := ih (fun k hk => hv k (by simp [hk])) r ⟨hr0, n, hn⟩
      refine ⟨?_, ?_⟩
      · rcases List.mem_cons.1 h1 with h | h
        · rw [h]; exact List.mem_cons_self
        · exact List.mem_cons_of_mem _ (List.mem_cons_of_mem _ h)
      · intro k hk
        rcases List.mem_cons.1 hk with rfl | hk
        · exact h2 _ (by simp)
        rcases List.mem_cons.1 hk with rfl | hk
        · refine tr (b := r) ?_ (h2 _ (by simp))
          rw [hle]; simp [hmn]
        · exact h2 _ (by simp [hk])
    · simp only [hmn, decide_false, Bool.not_false, if_true]
      obtain ⟨h1, h2⟩ := ih (fun k hk => hv k (by simp [hk])) x ⟨hx0, m, hm⟩
      refine ⟨by simp only [List.mem_cons] at h1 ⊢; tauto, ?_⟩
      intro k hk
      rcases List.mem_cons.1 hk with rfl | hk
      · refine tr (b := x) ?_ (h2 _ (by simp))
        simp only [versionLessOrEqual, hm, hn, decide_eq_true_eq]; omega
      · exact h2 k hk

theorem collect_noErrors {α : Type} {f : α → Res (List Fnd)} {l : List α} {fs : List Fnd} (h : collect f l = .ok fs)
    (hn : NoErrors fs) {a : α} (ha : a ∈ l) : ∃ g, f a = .ok g ∧ NoErrors g := by
  obtain ⟨g, hg⟩ := collect_ok_iff.1 ⟨fs, h⟩ a ha
  exact ⟨g, hg, fun x hx => hn x ((mem_collect h x).2 ⟨a, ha, g, hg, hx⟩)⟩

theorem finalize_goodVersions {env : Env} {r : RawInv} {inv : Inv} {f : List Fnd} (h : finalize env r = .ok (inv, f))
    (hn : NoErrors f) : GoodVersions inv ∧ inv.digestAlg = "sha512".toList := by
  obtain ⟨a, b, ha, hb, rfl, rfl⟩ := finalize_ok h
  simp only [noErrors_append] at hn
  obtain ⟨⟨_, hna⟩, hnb⟩ := hn
  have F := check_findings hb
  have hmem := fun x hx => hnb x ((F.mem x).2 hx)
  have hnum0 : ∀ k ∈ mkeys r.inv.versions, ∃ n, verNumber k = some n := by
    intro k hk
    obtain ⟨⟨k', v⟩, he, rfl⟩ := List.mem_map.1 hk
    obtain ⟨g, hg, hgn⟩ := collect_noErrors ha hna he
    unfold finalizeVersion at hg
    cases hv : verNumber k' with
    | none =>
      simp only [hv] at hg
      cases hg
      have := hgn _ (List.mem_singleton.2 rfl)
      simp [err] at this
    | some n => exact ⟨n, rfl⟩
  have hpad : NoErrors (padFold (-1) (mkeys r.inv.versions)).2 := fun x hx => hmem x (Or.inr (Or.inl hx))
  have hnum : ∀ k ∈ mkeys r.inv.versions, ∃ n, verNumber k = some n ∧ vNumber k = some n := by
    intro k hk
    obtain ⟨n, hn⟩ := hnum0 k hk
    exact ⟨n, hn, vNumber_of_verNumber (padFold_noErrors hpad hk hn) hn⟩
  have hseq : sequenceFnd (versionNumbers r.inv) = [] := by
    have hs : NoErrors (sequenceFnd (versionNumbers r.inv)) := fun x hx =>
      hmem x (Or.inr (Or.inr (Or.inr (Or.inl hx))))
    unfold sequenceFnd at hs ⊢
    split
    · rename_i hc
      rw [if_pos hc] at hs
      have := hs _ (List.mem_singleton.2 rfl)
      simp [err] at this
    · rfl
  obtain ⟨N, hN⟩ := (sequenceFnd_eq_nil_iff _).1 hseq
  have hnd : (versionNumbers r.inv).Nodup := by
    rw [hN.nodup_iff]
    refine List.Nodup.map ?_ List.nodup_range
    intro a b h
    have h : ((a + 1 : Nat) : Int) = ((b + 1 : Nat) : Int) := h
    omega
  have hempty : ¬ verNumber [] = some 0 := by decide
  have hne : ∀ k ∈ mkeys r.inv.versions, k ≠ [] := by
    rintro k hk rfl
    obtain ⟨n, hn, _⟩ := hnum _ hk
    exact absurd hn (by simp [verNumber, trimLeft, atoi, isDigits])
  have hmemV : ∀ k, k ∈ getVersionStrings r.inv ↔ k ∈ mkeys r.inv.versions := by
    intro k
    unfold getVersionStrings
    by_cases hv : r.inv.versions = []
    · simp [hv]
    rw [if_neg hv, mapM_eq_map (fun k hk => (hnum k hk).imp (fun _ h => h.2))]
    simp only [List.mem_map]
    have hfil : ∀ k ∈ mkeys r.inv.versions, ∀ n, vNumber k = some n →
        ∀ y ∈ (mkeys r.inv.versions).filter (fun j => decide (vNumber j = some n)), y = k := by
      intro k hk n hkn y hy
      rw [List.mem_filter, decide_eq_true_eq] at hy
      obtain ⟨m, hm1, hm2⟩ := hnum y hy.1
      obtain ⟨m', hm1', hm2'⟩ := hnum k hk
      rw [hm2] at hy; rw [hm2'] at hkn
      have e1 := hy.2; cases e1; cases hkn
      exact filterMap_nodup_inj hnd hy.1 hk hm1 hm1'
    have hlast : ∀ k ∈ mkeys r.inv.versions, ∀ n, vNumber k = some n →
        (((mkeys r.inv.versions).filter (fun j => decide (vNumber j = some n))).getLast?).getD [] = k := by
      intro k hk n hkn
      have hin : k ∈ (mkeys r.inv.versions).filter (fun j => decide (vNumber j = some n)) := by
        rw [List.mem_filter, decide_eq_true_eq]; exact ⟨hk, hkn⟩
      have hne' := List.ne_nil_of_mem hin
      rw [List.getLast?_eq_getLast_of_ne_nil hne']
      exact hfil k hk n hkn _ (List.getLast_mem hne')
    constructor
    · rintro ⟨n, hn', rfl⟩
      obtain ⟨j, hj, hjn⟩ := List.mem_map.1 ((sortInt_perm _).mem_iff.1 hn')
      obtain ⟨m, _, hm⟩ := hnum j hj
      rw [hm] at hjn; simp only [Option.getD_some] at hjn; subst hjn
      rw [hlast j hj m hm]; exact hj
    · intro hk
      obtain ⟨n, _, hkn⟩ := hnum k hk
      refine ⟨n, (sortInt_perm _).mem_iff.2 (List.mem_map.2 ⟨k, hk, by rw [hkn]; rfl⟩), hlast k hk n hkn⟩
  have hscal : NoErrors (checkScalars env r) := fun x hx => hmem x (by tauto)
  have hhead : NoErrors (headFnd r.inv) := fun x hx => hmem x (by tauto)
  unfold checkScalars at hscal
  simp only [noErrors_append] at hscal
  have hh0 : r.inv.head ≠ [] := by
    intro h0
    have h3 := hscal.1.1.1.1.2
    split at h3
    · have := h3 _ (List.mem_singleton.2 rfl); simp [err] at this
    · have := h3 _ (List.mem_singleton.2 rfl); simp [err] at this
  have halg : r.inv.digestAlg = "sha512".toList := by
    have h6 := hscal.1.2
    split at h6
    · have := h6 _ (List.mem_singleton.2 rfl); simp [err] at this
    · split at h6
      · have := h6 _ (List.mem_singleton.2 rfl); simp at this
      · rename_i h1 h2
        by_contra hc
        exact h1 ⟨hc, h2⟩
  unfold headFnd at hhead
  simp only [noErrors_append] at hhead
  have hrec : r.inv.head = recentVersion r.inv := by
    by_contra hc
    have h1 := hhead.1
    rw [if_pos ⟨hc, hh0⟩] at h1
    have := h1 _ (List.mem_singleton.2 rfl); simp [err] at this
  have hin : r.inv.head ∈ getVersionStrings r.inv := by
    by_contra hc
    have h1 := hhead.2
    rw [if_pos ⟨hh0, hc⟩] at h1
    have := h1 _ (List.mem_singleton.2 rfl); simp [err] at this
  have hval : ∀ k ∈ getVersionStrings r.inv, k ≠ [] ∧ ∃ n, versionValue r.inv k = some n := by
    intro k hk
    have hk' := (hmemV k).1 hk
    refine ⟨hne k hk', ?_⟩
    obtain ⟨v, hv⟩ := Option.isSome_iff_exists.1 (mget_isSome_iff.2 hk')
    obtain ⟨n, hn, _⟩ := hnum k hk'
    exact ⟨n, by unfold versionValue; rw [hv]; exact hn⟩
  refine ⟨⟨hnum, ⟨N, hN⟩, hmemV, (hmemV _).1 hin, ?_⟩, halg⟩
  intro k hk
  show versionLessOrEqual r.inv k r.inv.head = true
  rw [hrec]
  have hk' := (hmemV k).2 hk
  unfold recentVersion
  cases hl : getVersionStrings r.inv with
  | nil => rw [hl] at hk'; simp at hk'
  | cons x l =>
    rw [hl] at hval hk'
    rw [List.foldl_cons, if_pos rfl]
    exact (recent_fold_max l (fun k hk => hval k (by simp [hk])) x (hval x (by simp))).2 k hk'

/-! ## The digests of the files -/

/-- the table of digests lists the file under this digest -/
def InSums (fm : FileManifest) (a dg f : Str) : Prop :=
  ∃ m names, mget fm a = some m ∧ mget m dg = some names ∧ f ∈ names

theorem inSums_addSum (f : Str) (fm : FileManifest) (x : Str × Str) (a dg g : Str) :
    InSums (addSum f fm x) a dg g ↔ InSums fm a dg g ∨ (a = x.1 ∧ dg = x.2 ∧ g = f) := by
  unfold InSums addSum addSum.mgetD'
  by_cases ha : a = x.1
  · subst ha
    rw [mget_mset_self]
    have key : (∃ m names, mget fm x.1 = some m ∧ mget m dg = some names ∧ g ∈ names) ↔
        ∃ names, mget ((mget fm x.1).getD []) dg = some names ∧ g ∈ names := by
      cases mget fm x.1 with
      | none => simp
      | some m => simp
    rw [key]
    generalize (mget fm x.1).getD [] = m
    have key2 : ∀ X : DMap, (∃ m names, some X = some m ∧ mget m dg = some names ∧ g ∈ names) ↔
        ∃ names, mget X dg = some names ∧ g ∈ names := by
      intro X
      constructor
      · rintro ⟨m, names, h, h'⟩; cases h; exact ⟨names, h'⟩
      · rintro ⟨names, h⟩; exact ⟨X, names, rfl, h⟩
    rw [key2]
    by_cases hd : dg = x.2
    · subst hd
      rw [mget_mset_self]
      unfold mgetD
      cases mget m x.2 with
      | none => simp
      | some names => simp
    · rw [mget_mset_ne _ (Ne.symm hd)]
      simp [hd]
  · rw [mget_mset_ne _ (Ne.symm ha)]
    simp [ha]

theorem inSums_foldl (f : Str) (cs : List (Str × Str)) : ∀ (fm : FileManifest) (a dg g : Str),
    InSums (cs.foldl (addSum f) fm) a dg g ↔ InSums fm a dg g ∨ ((a, dg) ∈ cs ∧ g = f) := by
  induction cs with
  | nil => intro fm a dg g; simp
  | cons x cs ih =>
    intro fm a dg g
    rw [List.foldl_cons, ih, inSums_addSum]
    obtain ⟨x1, x2⟩ := x
    simp only [List.mem_cons, Prod.mk.injEq]
    tauto

theorem mem_checksums {w : World} {algs : List Str} {data : Bytes} {cs : AMap Str Str}
    (h : checksums w algs data = some cs) (a dg : Str) :
    (a, dg) ∈ cs ↔ a ∈ algs ∧ ∃ hf, w.hash a = some hf ∧ dg = hf data := by
  unfold checksums at h
  induction algs generalizing cs with
  | nil => simp only [List.mapM_nil, Option.pure_def, Option.some.injEq] at h; subst h; simp
  | cons b algs ih =>
    rw [List.mapM_cons] at h
    cases hb : w.hash b with
    | none => rw [hb] at h; simp at h
    | some hf =>
      rw [hb] at h
      cases hr : algs.mapM (fun a => (w.hash a).map (fun h => (a, h data))) with
      | none => rw [hr] at h; simp at h
      | some cs' =>
        rw [hr] at h
        simp at h
        subst h
        simp only [List.mem_cons, Prod.mk.injEq, ih hr]
        constructor
        · rintro (⟨rfl, rfl⟩ | ⟨h1, h2⟩)
          · exact ⟨Or.inl rfl, hf, hb, rfl⟩
          · exact ⟨Or.inr h1, h2⟩
        · rintro ⟨rfl | h1, hf', h2, h3⟩
          · rw [hb] at h2; cases h2; exact Or.inl ⟨rfl, h3⟩
          · exact Or.inr ⟨h1, hf', h2, h3⟩

/-- The table lists exactly the digests of the files. -/
theorem inSums_contentManifest {w : World} {fs : FS} {algs : List Str} (l : List Str) {fm fm' : FileManifest}
    (h : contentManifest w fs algs fm l = .ok fm') (a dg f : Str) :
    InSums fm' a dg f ↔ InSums fm a dg f ∨
      (f ∈ l ∧ a ∈ algs ∧ ∃ hf, w.hash a = some hf ∧ dg = hf ((mget fs f).getD [])) := by
  induction l generalizing fm with
  | nil => cases h; simp
  | cons g l ih =>
    rw [contentManifest] at h
    cases hc : checksums w algs ((mget fs g).getD []) with
    | none => rw [hc] at h; cases h
    | some cs =>
      rw [hc] at h
      rw [ih h, inSums_foldl]
      constructor
      · rintro ((h1 | ⟨h1, rfl⟩) | ⟨h1, h2⟩)
        · exact Or.inl h1
        · exact Or.inr ⟨by simp, (mem_checksums hc _ _).1 h1⟩
        · exact Or.inr ⟨by simp [h1], h2⟩
      · rintro (h1 | ⟨h1, h2⟩)
        · exact Or.inl (Or.inl h1)
        · rcases List.mem_cons.1 h1 with rfl | h1
          · exact Or.inl (Or.inr ⟨(mem_checksums hc _ _).2 h2, rfl⟩)
          · exact Or.inr ⟨h1, h2⟩

/-! ## C75 -/

/-- names allowed by the specification for files of the object folder and of version folders (the inventory, its
sidecar, the declaration) as the tool reads it: any character may stand for the dot of `inventory.json` -/
def AllowedName (n : Str) : Prop :=
  (∃ (c : Char) (x : Str), x ∈ ["".toList, ".sha512".toList, ".sha384".toList, ".sha256".toList, ".sha1".toList, ".md5".toList] ∧
    n = "inventory".toList ++ c :: ("json".toList ++ x)) ∨
  ∃ a b : Str, isDigits a = true ∧ isDigits b = true ∧ n = "0=ocfl_object_".toList ++ (a ++ '.' :: b)

/-- What an object's folder should hold, given its inventory. -/
structure HoldsContent (hash : Bytes → Str) (inv : Inv) (fs : FS) : Prop where
  /-- every content path is a file with the content of that digest -/
  present : ∀ d m p, (d, m) ∈ inv.manifest → p ∈ m → ∃ b, mget fs p = some b ∧ hash b = toLower d
  /-- every file in the content directory of a version is in the manifest -/
  complete : ∀ v ver p b, (v, ver) ∈ inv.versions → mget fs (v ++ '/' :: inv.contentDir ++ '/' :: p) = some b →
    ∃ d m, (d, m) ∈ inv.manifest ∧ (v ++ '/' :: inv.contentDir ++ '/' :: p) ∈ m
  /-- every version has a folder -/
  folders : ∀ v ver, (v, ver) ∈ inv.versions → ∃ p b, mget fs (v ++ '/' :: p) = some b
  /-- no other files in the object folder -/
  files : ∀ n b, mget fs n = some b → '/' ∉ n → AllowedName n
  /-- no other folders in the object folder -/
  dirs : ∀ d p b, mget fs (d ++ '/' :: p) = some b → '/' ∉ d →
    (∃ ver, (d, ver) ∈ inv.versions) ∨ d = "logs".toList ∨ d = "extensions".toList
  /-- no other files in version folders -/
  versionFiles : ∀ v ver n b, (v, ver) ∈ inv.versions → mget fs (v ++ '/' :: n) = some b → '/' ∉ n → AllowedName n

theorem mem_filesUnder {fs : FS} {dir p : Str} : p ∈ filesUnder fs dir ↔ p ∈ mkeys fs ∧ ∃ r, p = dir ++ '/' :: r := by
  unfold filesUnder
  rw [List.mem_filter]
  refine and_congr_right (fun _ => ?_)
  unfold hasPrefix
  rw [List.isPrefixOf_iff_prefix]
  constructor
  · rintro ⟨t, rfl⟩; exact ⟨t, by simp⟩
  · rintro ⟨r, rfl⟩; exact ⟨r, by simp⟩

theorem isInventoryName_spec {s : Str} (h : isInventoryName s = true) :
    ∃ c, s = "inventory".toList ++ c :: "json".toList := by
  unfold isInventoryName at h
  split at h
  · rename_i c r heq
    simp only [Bool.and_eq_true, decide_eq_true_eq] at h
    refine ⟨c, ?_⟩
    rw [← List.take_append_drop 9 s, heq, h.1.1, h.2]
  · cases h

theorem numMatch_spec {s v : Str} (h : numMatch s = some v) :
    ∃ a b : Str, isDigits a = true ∧ isDigits b = true ∧ v = a ++ '.' :: b := by
  unfold numMatch at h
  simp only at h
  have hd : ∀ t : Str, t.takeWhile Char.isDigit ≠ [] → isDigits (t.takeWhile Char.isDigit) = true := by
    intro t ht
    unfold isDigits
    simp only [Bool.and_eq_true, Bool.not_eq_true', List.isEmpty_eq_false_iff, List.all_takeWhile, and_true]
    exact ht
  split at h
  · cases h
  · rename_i h1
    split at h
    · rename_i r heq
      split at h
      · cases h
      · rename_i h2
        cases h
        exact ⟨_, _, hd _ h1, hd _ h2, rfl⟩
    · cases h

theorem allowedFile_spec {n : Str} (h : allowedFile n = true) : AllowedName n := by
  unfold allowedFile at h
  rw [Bool.or_eq_true] at h
  rcases h with h | h
  · obtain ⟨x, hx, h⟩ := List.any_eq_true.1 h
    rw [Bool.and_eq_true] at h
    obtain ⟨t, ht⟩ := List.isSuffixOf_iff_suffix.1 h.1
    have h2 := h.2
    rw [← ht] at h2 ⊢
    rw [List.length_append, Nat.add_sub_cancel, List.take_left'] at h2
    swap; · rfl
    obtain ⟨c, rfl⟩ := isInventoryName_spec h2
    exact Or.inl ⟨c, x, hx, by simp⟩
  · obtain ⟨v, hv⟩ := Option.isSome_iff_exists.1 h
    unfold declExact at hv
    split at hv
    · rename_i v' hh
      split at hv
      · rename_i he
        cases hv
        unfold declHere at hh
        split at hh
        · obtain ⟨a, b, ha, hb, hvv⟩ := numMatch_spec hh
          refine Or.inr ⟨a, b, ha, hb, ?_⟩
          rw [he, hvv]; rfl
        · cases hh
      · cases hv
    · cases hv

theorem not_err_mem {f : List Fnd} (h : NoErrors f) {c : Nat} {l : List Str} : err c l ∉ f := by
  intro hx
  have := h _ hx
  simp [err] at this

theorem mem_topFileNames {fs : FS} {n : Str} : n ∈ topFileNames fs ↔ n ∈ mkeys fs ∧ '/' ∉ n := by
  unfold topFileNames
  rw [List.mem_filter]
  simp

theorem mem_topDirs {fs : FS} {d : Str} : d ∈ topDirs fs ↔ '/' ∉ d ∧ ∃ p, d ++ '/' :: p ∈ mkeys fs := by
  unfold topDirs
  rw [List.mem_eraseDups, List.mem_filterMap]
  constructor
  · rintro ⟨p, hp, h⟩
    unfold firstDir at h
    split at h
    · rename_i hs
      cases h
      refine ⟨?_, ?_⟩
      · intro hc
        have := List.mem_takeWhile_imp hc
        simp at this
      · have hsplit := List.takeWhile_append_dropWhile (p := fun c => decide (c ≠ '/')) (l := p)
        cases hd : p.dropWhile (fun c => decide (c ≠ '/')) with
        | nil =>
          rw [List.dropWhile_eq_nil_iff] at hd
          exact absurd (hd _ hs) (by simp)
        | cons c r =>
          have hc : c = '/' := by
            have := List.head_dropWhile_not (p := fun c => decide (c ≠ '/')) (l := p) (by rw [hd]; simp)
            simp only [hd, List.head_cons] at this
            simpa using this
          subst hc
          rw [hd] at hsplit
          exact ⟨r, by rw [hsplit]; exact hp⟩
    · cases h
  · rintro ⟨hd, p, hp⟩
    refine ⟨_, hp, ?_⟩
    unfold firstDir
    rw [if_pos (by simp)]
    rw [List.takeWhile_append_of_pos]
    · simp
    · intro c hc
      simp only [ne_eq, decide_not, Bool.not_eq_eq_eq_not, Bool.not_true, decide_eq_false_iff_not]
      rintro rfl; exact hd hc

theorem versionFolderFnd_noErrors {fs : FS} {ver : Str} (h : NoErrors (versionFolderFnd fs ver)) {n : Str} {b : Bytes}
    (hb : mget fs (ver ++ '/' :: n) = some b) (hs : '/' ∉ n) : AllowedName n := by
  by_contra hc
  have hna : allowedFile n = false := by
    cases ha : allowedFile n with
    | true => exact absurd (allowedFile_spec ha) hc
    | false => rfl
  have hk : n ∈ mkeys (subFS fs ver) := by
    rw [← mget_isSome_iff, mget_subFS]
    show (mget fs (ver ++ '/' :: n)).isSome
    rw [hb]; rfl
  refine not_err_mem h (c := 15) (l := [n, ver]) ?_
  unfold versionFolderFnd
  refine List.mem_map.2 ⟨n, List.mem_filter.2 ⟨mem_topFileNames.2 ⟨hk, hs⟩, by simp [hna]⟩, rfl⟩

theorem filesFlat_files {inv : Inv} {x : List Str × List Fnd} (h : filesFlat inv = .ok x) :
    x.1 = inv.manifest.flatMap (·.2) := by
  unfold filesFlat at h
  simp only at h
  split at h
  · cases h
  · cases h; rfl

theorem hasDir_iff {fs : FS} {d : Str} : hasDir fs d = true ↔ ∃ p, p ∈ filesUnder fs d := by
  unfold hasDir filesUnder
  rw [List.any_eq_true]
  simp only [List.mem_filter]

/-- the parts of a complete check -/
theorem checkFilesAndVersions_ok {w : World} {env : Env} {plain : Bool} {fs : FS} {inv : Inv} {F : List Fnd}
    (h : checkFilesAndVersions w env plain fs inv = .ok F) :
    ∃ f1 vis fm f2 cd f3 f4 f5 f6 f7,
      collect (walkFnd plain fs inv) (getVersionStrings inv) = .ok f1 ∧
      versionInventories w env plain fs (getVersionStrings inv) = .ok vis ∧
      contentManifest w fs (allDigests inv vis.1) [] ((getVersionStrings inv).flatMap (filesUnder fs)) = .ok fm ∧
      checkFiles inv fm = .ok f2 ∧
      (∀ v l, getVersionStrings inv = v :: l → ∃ i, mget vis.1 v = some i ∧ cd = i.contentDirectory) ∧
      collect (versionDirFnd fs fm cd) vis.1 = .ok f3 ∧
      collect (crossFnd inv) vis.1 = .ok f4 ∧
      collect (fun e => missingFnd ((getVersionStrings inv).flatMap (filesUnder fs)) e.1 e.2) vis.1 = .ok f5 ∧
      missingFnd ((getVersionStrings inv).flatMap (filesUnder fs)) [] inv = .ok f6 ∧
      collect (fun v => collect (fun e => extraFnd fs inv v e.1 e.2) vis.1 >>= fun a =>
        extraFnd fs inv v inv.head inv >>= fun b => .ok (a ++ b)) (getVersionStrings inv) = .ok f7 ∧
      F = f1 ++ vis.2 ++ f2 ++ f3 ++ (pairs (getVersionStrings inv)).flatMap (specFnd vis.1) ++
        lastFnd inv vis.1 (getVersionStrings inv) ++ f4 ++ f5 ++ f6 ++ f7 := by
  unfold checkFilesAndVersions at h
  simp only at h
  obtain ⟨f1, h1, h⟩ := res_bind_eq_ok.1 h
  obtain ⟨vis, hv, h⟩ := res_bind_eq_ok.1 h
  obtain ⟨fm, hm, h⟩ := res_bind_eq_ok.1 h
  obtain ⟨f2, h2, h⟩ := res_bind_eq_ok.1 h
  obtain ⟨cd, hc, h⟩ := res_bind_eq_ok.1 h
  obtain ⟨f3, h3, h⟩ := res_bind_eq_ok.1 h
  obtain ⟨f4, h4, h⟩ := res_bind_eq_ok.1 h
  obtain ⟨f5, h5, h⟩ := res_bind_eq_ok.1 h
  obtain ⟨f6, h6, h⟩ := res_bind_eq_ok.1 h
  obtain ⟨f7, h7, h⟩ := res_bind_eq_ok.1 h
  cases h
  refine ⟨f1, vis, fm, f2, cd, f3, f4, f5, f6, f7, h1, hv, hm, h2, ?_, h3, h4, h5, h6, h7, rfl⟩
  intro v l hvl
  rw [hvl, firstContentDir] at hc
  split at hc
  · cases hc
  · rename_i i hi
    cases hc
    exact ⟨i, hi, rfl⟩

theorem checkFolder_ok {w : World} {env : Env} {plain : Bool} {blank : Inv} {fs : FS} {folder : Str} {F : List Fnd}
    (h : checkFolder w env plain blank fs folder = .ok F) (hn : NoErrors F) :
    ∃ inv f g, loadByFolder w env plain blank fs folder = .ok (inv, f) ∧ loadRoot w env (subFS fs folder) = .ok (inv, f) ∧
      checkFilesAndVersions w env plain (subFS fs folder) inv = .ok g ∧
      F = f ++ (folderFnd (subFS fs folder) inv ++ g) := by
  unfold checkFolder at h
  split at h
  · cases h
  · cases h; exact absurd (List.mem_singleton.2 rfl) (not_err_mem hn)
  · rename_i inv f hl
    split at h
    · cases h
    · rename_i hne
      obtain ⟨g', hg', h⟩ := res_bind_eq_ok.1 h
      cases h
      unfold checkObject at hg'
      obtain ⟨g, hg, hg'⟩ := res_bind_eq_ok.1 hg'
      cases hg'
      refine ⟨inv, f, g, hl, ?_, hg, rfl⟩
      unfold loadByFolder at hl
      split at hl
      · unfold loadInventory at hl
        split at hl
        · rename_i hx; exact absurd hx hne
        · exact hl
      · cases hl

theorem loadRoot_good {w : World} {env : Env} {fs : FS} {inv : Inv} {f : List Fnd}
    (h : loadRoot w env fs = .ok (inv, f)) (hn : NoErrors f) : GoodVersions inv ∧ inv.digestAlg = "sha512".toList := by
  obtain ⟨b, r, x, g, _, _, hx, _, rfl, rfl⟩ := loadRoot_ok h
  rw [noErrors_append] at hn
  obtain ⟨G, ha⟩ := finalize_goodVersions (inv := x.1) (f := x.2) hx hn.1
  exact ⟨⟨G.num, G.seq, G.mem, G.head, G.last⟩, ha⟩

theorem alg_mem_allDigests (inv : Inv) (vis : AMap Str Inv) : inv.digestAlg ∈ allDigests inv vis := by
  unfold allDigests
  rw [mem_slicesCompact]
  exact (sortStr_perm _).mem_iff.2 (by simp)

/-- the content paths of an inventory for which the checks of digests and of existence find nothing -/
theorem present_of {w : World} {fs : FS} {algs l : List Str} {fm : FileManifest} {i : Inv} {f2 f6 : List Fnd} {ver : Str}
    {hash : Bytes → Str} (halg : i.digestAlg ∈ algs) (hhash : w.hash i.digestAlg = some hash)
    (hm : contentManifest w fs algs [] (l.flatMap (filesUnder fs)) = .ok fm) (h2 : checkFiles i fm = .ok f2)
    (n2 : NoErrors f2) (h6 : missingFnd (l.flatMap (filesUnder fs)) ver i = .ok f6) (n6 : NoErrors f6) {d : Str}
    {m : List Str} {p : Str} (hd : (d, m) ∈ i.manifest) (hp : p ∈ m) : ∃ b, mget fs p = some b ∧ hash b = toLower d := by
  have hsums := inSums_contentManifest _ hm
  have hfound : p ∈ l.flatMap (filesUnder fs) := by
    unfold missingFnd at h6
    obtain ⟨x, hx, h6⟩ := res_bind_eq_ok.1 h6
    cases h6
    by_contra hc
    refine not_err_mem (noErrors_append.1 n6).2 (c := 92) (l := [p, ver]) (List.mem_map.2 ⟨p, ?_, rfl⟩)
    rw [List.mem_filter, filesFlat_files hx]
    exact ⟨List.mem_flatMap.2 ⟨_, hd, hp⟩, by simpa using hc⟩
  obtain ⟨v, hvv, hpv⟩ := List.mem_flatMap.1 hfound
  obtain ⟨b, hb⟩ := Option.isSome_iff_exists.1 (mget_isSome_iff.2 (mem_filesUnder.1 hpv).1)
  refine ⟨b, hb, ?_⟩
  have hin : InSums fm i.digestAlg (hash b) p :=
    (hsums _ _ _).2 (Or.inr ⟨hfound, halg, hash, hhash, by rw [hb]; rfl⟩)
  obtain ⟨cs, names, hcs, _, _⟩ := hin
  unfold checkFiles at h2
  simp only [hcs] at h2
  obtain ⟨fx, hfx, h2⟩ := res_bind_eq_ok.1 h2
  cases h2
  have hcl : NoErrors (checkManifestFiles cs (d, m)) := fun x hx =>
    (noErrors_append.1 n2).1 x (List.mem_flatMap.2 ⟨_, hd, hx⟩)
  unfold checkManifestFiles at hcl
  simp only at hcl
  cases hnm : mget cs (toLower d) with
  | none => rw [hnm] at hcl; exact absurd (List.mem_singleton.2 rfl) (not_err_mem hcl)
  | some names' =>
    rw [hnm] at hcl
    have hpn : p ∈ names' := by
      by_contra hc
      refine not_err_mem hcl (c := 92) (l := [p]) (List.mem_map.2 ⟨p, ?_, rfl⟩)
      rw [List.mem_filter]; exact ⟨hp, by simpa using hc⟩
    have := (hsums i.digestAlg (toLower d) p).1 ⟨cs, names', hcs, hnm, hpn⟩
    rcases this with ⟨m0, _, h0, _⟩ | ⟨_, _, hf, hhf, hde⟩
    · simp at h0
    · rw [hhash] at hhf; cases hhf
      rw [hde, hb]; rfl

/-- **C75.** If validation of an object runs to its end and reports no error, then the object holds exactly its
content: every content path of the root inventory is a file with the content of its digest, every file in the content
directories is in the manifest, all versions have folders, and there is nothing else at the top of the object. -/
theorem C75_accepted_content {w : World} {env : Env} {plain : Bool} {blank : Inv} {fs : FS} {folder : Str} {F : List Fnd}
    (h : checkFolder w env plain blank fs folder = .ok F) (hn : NoErrors F) :
    ∃ inv f hash, loadByFolder w env plain blank fs folder = .ok (inv, f) ∧ w.hash inv.digestAlg = some hash ∧
      HoldsContent hash inv (subFS fs folder) := by
  obtain ⟨inv, f, g, hl, hr, hg, rfl⟩ := checkFolder_ok h hn
  generalize subFS fs folder = ofs at *
  simp only [noErrors_append] at hn
  obtain ⟨hnf, hnF, hng⟩ := hn
  obtain ⟨G, halg⟩ := loadRoot_good hr hnf
  obtain ⟨f1, vis, fm, f2, cd, f3, f4, f5, f6, f7, h1, hv, hm, h2, hcd, h3, h4, h5, h6, h7, rfl⟩ :=
    checkFilesAndVersions_ok hg
  simp only [noErrors_append] at hng
  obtain ⟨⟨⟨⟨⟨⟨⟨⟨⟨n1, nv⟩, n2⟩, n3⟩, n3'⟩, n3''⟩, n4⟩, n5⟩, n6⟩, n7⟩ := hng
  have hver : ∀ {v ver}, (v, ver) ∈ inv.versions → v ∈ getVersionStrings inv := fun h =>
    (G.mem _).2 (mem_mkeys_of_mem h)
  -- all versions have folders
  have hdir : ∀ v ∈ getVersionStrings inv, ∃ p, p ∈ filesUnder ofs v := by
    intro v hv
    obtain ⟨g, hg, _⟩ := collect_noErrors h1 n1 hv
    unfold walkFnd at hg
    rw [← hasDir_iff]
    by_contra hc
    rw [if_pos (by simpa using hc)] at hg
    cases hg
  have hsome : ∀ {p : Str}, p ∈ mkeys ofs → ∃ b, mget ofs p = some b := fun hp =>
    Option.isSome_iff_exists.1 (mget_isSome_iff.2 hp)
  have hkey : ∀ {p : Str} {b : Bytes}, mget ofs p = some b → p ∈ mkeys ofs := fun hp =>
    mget_isSome_iff.1 (by rw [hp]; rfl)
  -- the hash function
  obtain ⟨hash, hhash⟩ : ∃ hash, w.hash inv.digestAlg = some hash := by
    have hh : inv.head ∈ getVersionStrings inv := (G.mem _).2 G.head
    obtain ⟨p, hp⟩ := hdir _ hh
    have hpm : p ∈ (getVersionStrings inv).flatMap (filesUnder ofs) := List.mem_flatMap.2 ⟨_, hh, hp⟩
    have : ∀ (l : List Str) (fm fm' : FileManifest), p ∈ l →
        contentManifest w ofs (allDigests inv vis.1) fm l = .ok fm' → ∃ hash, w.hash inv.digestAlg = some hash := by
      intro l
      induction l with
      | nil => intro _ _ hp; simp at hp
      | cons a l ih =>
        intro fm fm' hp hc
        rw [contentManifest] at hc
        cases hcs : checksums w (allDigests inv vis.1) ((mget ofs a).getD []) with
        | none => rw [hcs] at hc; cases hc
        | some cs =>
          rw [hcs] at hc
          by_contra hno
          have hno' : w.hash inv.digestAlg = none := by
            cases hw : w.hash inv.digestAlg with
            | none => rfl
            | some x => exact absurd ⟨x, hw⟩ hno
          unfold checksums at hcs
          have : ∀ (al : List Str) (cs : AMap Str Str), inv.digestAlg ∈ al →
              al.mapM (fun a_1 => (w.hash a_1).map (fun h => (a_1, h ((mget ofs a).getD [])))) = some cs → False := by
            intro al
            induction al with
            | nil => intro _ hx; simp at hx
            | cons y al ih2 =>
              intro cs hx hmm
              rw [List.mapM_cons] at hmm
              rcases List.mem_cons.1 hx with rfl | hx
              · rw [hno'] at hmm; simp at hmm
              · cases hy : w.hash y with
                | none => rw [hy] at hmm; simp at hmm
                | some hf =>
                  rw [hy] at hmm
                  cases hal : al.mapM (fun a_1 => (w.hash a_1).map (fun h => (a_1, h ((mget ofs a).getD [])))) with
                  | none => rw [hal] at hmm; simp at hmm
                  | some cs2 => exact ih2 _ hx hal
          exact this _ _ (alg_mem_allDigests inv vis.1) hcs
    exact this _ _ _ hpm hm
  refine ⟨inv, f, hash, hl, hhash, ?_⟩
  constructor
  case present =>
    intro d m p hd hp
    exact present_of (alg_mem_allDigests _ _) hhash hm h2 n2 h6 n6 hd hp
  case complete =>
    intro v ver p b hvv hb
    have hvs := hver hvv
    obtain ⟨gx, hgx, hgn⟩ := collect_noErrors h7 n7 hvs
    obtain ⟨a, ha, hgx⟩ := res_bind_eq_ok.1 hgx
    obtain ⟨e, he, hgx⟩ := res_bind_eq_ok.1 hgx
    cases hgx
    unfold extraFnd at he
    rw [if_neg (by rw [G.last v (mem_mkeys_of_mem hvv)]; simp)] at he
    obtain ⟨x, hx, he⟩ := res_bind_eq_ok.1 he
    cases he
    by_contra hc
    refine not_err_mem (noErrors_append.1 (noErrors_append.1 hgn).2).2 (c := 23)
      (l := [v ++ '/' :: inv.contentDir ++ '/' :: p, inv.head]) (List.mem_map.2 ⟨_, List.mem_filter.2 ⟨?_, ?_⟩, rfl⟩)
    · unfold contentFiles
      rw [List.mem_filter, mem_filesUnder]
      refine ⟨⟨hkey hb, inv.contentDir ++ '/' :: p, by simp⟩, ?_⟩
      unfold hasPrefix
      exact List.isPrefixOf_iff_prefix.2 ⟨_, rfl⟩
    · rw [filesFlat_files hx]
      simp only [Bool.not_eq_eq_eq_not, Bool.not_true, decide_eq_false_iff_not, List.mem_flatMap, not_exists, not_and]
      intro ⟨d, m⟩ hdm hpm
      exact hc ⟨d, m, hdm, hpm⟩
  case folders =>
    intro v ver hvv
    obtain ⟨p, hp⟩ := hdir v (hver hvv)
    obtain ⟨hk, r, rfl⟩ := mem_filesUnder.1 hp
    obtain ⟨b, hb⟩ := hsome hk
    exact ⟨r, b, hb⟩
  case files =>
    intro n b hb hs
    by_contra hc
    have hna : allowedFile n = false := by
      cases ha : allowedFile n with
      | true => exact absurd (allowedFile_spec ha) hc
      | false => rfl
    unfold folderFnd at hnF
    simp only [noErrors_append] at hnF
    refine not_err_mem hnF.1.2 (c := 1) (l := [n]) (List.mem_map.2 ⟨n, List.mem_filter.2 ⟨?_, by simp [hna]⟩, rfl⟩)
    exact mem_topFileNames.2 ⟨hkey hb, hs⟩
  case dirs =>
    intro d p b hb hs
    unfold folderFnd at hnF
    simp only [noErrors_append] at hnF
    have hcl : NoErrors (topDirFnd ofs (getVersionStrings inv) d) := fun x hx =>
      hnF.1.1 x (List.mem_flatMap.2 ⟨d, mem_topDirs.2 ⟨hs, p, hkey hb⟩, hx⟩)
    unfold topDirFnd at hcl
    by_contra hc
    push Not at hc
    have hdv : d ∉ getVersionStrings inv := by
      intro hd
      obtain ⟨⟨k, ver⟩, he, hk⟩ := List.mem_map.1 ((G.mem d).1 hd)
      exact hc.1 ver (by rw [← hk]; exact he)
    rw [if_neg (by rintro (h | h | h); exacts [hdv h, hc.2.1 h, hc.2.2 h])] at hcl
    exact not_err_mem (noErrors_append.1 hcl).1 (List.mem_cons_self)
  case versionFiles =>
    intro v ver n b hvv hb hs
    have hvs := hver hvv
    have hns : '/' ∉ v := by
      obtain ⟨k, _, hk⟩ := G.num v (mem_mkeys_of_mem hvv)
      unfold vNumber at hk
      split at hk
      · rename_i r
        split at hk
        · rename_i hd
          unfold isDigits at hd
          simp only [Bool.and_eq_true, List.all_eq_true] at hd
          intro hc
          rcases List.mem_cons.1 hc with hc | hc
          · exact absurd hc (by decide)
          · exact absurd (hd.2 _ hc) (by decide)
        · cases hk
      · cases hk
    unfold folderFnd at hnF
    simp only [noErrors_append] at hnF
    have hcl : NoErrors (topDirFnd ofs (getVersionStrings inv) v) := fun x hx =>
      hnF.1.1 x (List.mem_flatMap.2 ⟨v, mem_topDirs.2 ⟨hns, n, hkey hb⟩, hx⟩)
    unfold topDirFnd at hcl
    rw [if_pos hvs] at hcl
    exact versionFolderFnd_noErrors (noErrors_append.1 hcl).2 hb hs

/-- an object with one version and one file -/
def ockInv : Inv where
  id := "info:x".toList
  spec := "https://ocfl.io/1.1/spec/#inventory".toList
  digestAlg := "sha512".toList
  head := "v1".toList
  contentDirectory := []
  manifest := [("d1".toList, ["v1/content/a".toList])]
  versions := [("v1".toList, ⟨"t".toList, "m".toList, "u".toList, "mailto:u@x".toList, [("d1".toList, ["a".toList])]⟩)]
  fixity := []
  fixityAlgs := []
  paddingLength := 0
  modified := false
  writeable := false

def ockWorld : World :=
  { exWorld with
    dec := fun b => if b = [9] then some { inv := ockInv, vmeta := [] } else none
    hash := fun a => if a = "sha512".toList then some (fun b => if b = [1] then "d1".toList else "ad".toList) else none }

def ockFS : FS :=
  [("o/0=ocfl_object_1.1".toList, asBytes "ocfl_object_1.1\n".toList),
   ("o/inventory.json".toList, [9]), ("o/inventory.json.sha512".toList, asBytes "ad inventory.json".toList),
   ("o/v1/inventory.json".toList, [9]), ("o/v1/inventory.json.sha512".toList, asBytes "ad inventory.json".toList),
   ("o/v1/content/a".toList, [1])]

theorem ock_accepted : checkFolder ockWorld exEnv false ockInv ockFS "o".toList = .ok [] := by decide

example : ∃ inv f hash, loadByFolder ockWorld exEnv false ockInv ockFS "o".toList = .ok (inv, f) ∧
    ockWorld.hash inv.digestAlg = some hash ∧ HoldsContent hash inv (subFS ockFS "o".toList) :=
  C75_accepted_content ock_accepted (by simp [NoErrors])

/-! ## C76 -/

/-- the content paths have at least one slash -/
def PathsSlashed (inv : Inv) : Prop := ∀ d m p, (d, m) ∈ inv.manifest → p ∈ m → '/' ∈ p

/-- What object validation needs of an object whose root inventory `inv` was loaded in order to come to an end. -/
structure Checkable (w : World) (env : Env) (plain : Bool) (fs : FS) (inv : Inv) : Prop where
  /-- every version has a folder … -/
  folder : ∀ v ∈ getVersionStrings inv, ∃ p b, mget fs (v ++ '/' :: p) = some b
  /-- … on a local disk with content … -/
  content : plain = false → ∀ v ∈ getVersionStrings inv, ∃ p b, mget fs (v ++ '/' :: inv.contentDir ++ p) = some b
  /-- … and an inventory; the first version always has one -/
  inventory : ∀ v ∈ getVersionStrings inv, plain = false ∨ (getVersionStrings inv).head? = some v →
    ∃ b, mget fs (verInvPath v) = some b
  /-- the inventories of versions can be loaded -/
  loads : ∀ v ∈ getVersionStrings inv, (∃ b, mget fs (verInvPath v) = some b) → ∃ y, loadVersion w env fs v = .ok y
  /-- the digest algorithms are known -/
  rootAlg : getVersionStrings inv ≠ [] → ∃ h, w.hash inv.digestAlg = some h
  algs : ∀ v ∈ getVersionStrings inv, ∀ i f, loadVersion w env fs v = .ok (i, f) →
    ∀ a, a = i.digestAlg ∨ a ∈ mkeys i.fixity → ∃ h, w.hash a = some h
  /-- the fixity algorithms of the root inventory are those of the versions -/
  fixity : getVersionStrings inv ≠ [] → ∀ a ∈ mkeys inv.fixity, a = inv.digestAlg ∨
    ∃ v i f, v ∈ getVersionStrings inv ∧ loadVersion w env fs v = .ok (i, f) ∧ (a = i.digestAlg ∨ a ∈ mkeys i.fixity)
  /-- the inventories of versions know only versions of the root inventory -/
  known : ∀ v ∈ getVersionStrings inv, ∀ i f, loadVersion w env fs v = .ok (i, f) →
    ∀ u ∈ mkeys i.versions, u ∈ mkeys inv.versions
  /-- content paths have slashes -/
  rootPaths : PathsSlashed inv
  paths : ∀ v ∈ getVersionStrings inv, ∀ i f, loadVersion w env fs v = .ok (i, f) → PathsSlashed i

theorem mget_verInv (fs : FS) (v : Str) : mget (subFS fs v) rootInvPath = mget fs (verInvPath v) := by
  rw [mget_subFS]
  congr 1

theorem loadVersion_none {w : World} {env : Env} {fs : FS} {v : Str} (h : mget fs (verInvPath v) = none) :
    ∃ e, loadVersion w env fs v = .error e := by
  unfold loadVersion loadRoot
  rw [mget_verInv, h]
  exact ⟨_, rfl⟩

theorem versionInventories_ok {w : World} {env : Env} {plain : Bool} {fs : FS} (l : List Str) :
    (∃ vis, versionInventories w env plain fs l = .ok vis) ↔
      ∀ v ∈ l, (mget fs (verInvPath v) = none → plain = true) ∧
        ((∃ b, mget fs (verInvPath v) = some b) → ∃ y, loadVersion w env fs v = .ok y) := by
  induction l with
  | nil => simp [versionInventories]
  | cons v l ih =>
    rw [List.forall_mem_cons, ← ih]
    rw [versionInventories]
    cases hb : mget fs (verInvPath v) with
    | none =>
      cases plain with
      | false => simp
      | true =>
        simp only [if_true]
        constructor
        · rintro ⟨vis, h⟩
          obtain ⟨x, hx, h⟩ := res_bind_eq_ok.1 h
          exact ⟨by simp, x, hx⟩
        · rintro ⟨_, x, hx⟩
          exact ⟨_, by rw [hx]; rfl⟩
    | some b =>
      simp only
      constructor
      · rintro ⟨vis, h⟩
        obtain ⟨y, hy, h⟩ := res_bind_eq_ok.1 h
        obtain ⟨x, hx, h⟩ := res_bind_eq_ok.1 h
        exact ⟨⟨by simp, fun _ => ⟨y, hy⟩⟩, x, hx⟩
      · rintro ⟨⟨_, h⟩, x, hx⟩
        obtain ⟨y, hy⟩ := h ⟨b, rfl⟩
        exact ⟨_, by rw [hy, res_bind_ok, hx]; rfl⟩

theorem mem_versionInventories {w : World} {env : Env} {plain : Bool} {fs : FS} {l : List Str}
    {vis : AMap Str Inv × List Fnd} (h : versionInventories w env plain fs l = .ok vis) (v : Str) (i : Inv) :
    (v, i) ∈ vis.1 ↔ v ∈ l ∧ ∃ f, loadVersion w env fs v = .ok (i, f) := by
  induction l generalizing vis with
  | nil => simp only [versionInventories] at h; cases h; simp
  | cons u l ih =>
    rw [versionInventories] at h
    cases hb : mget fs (verInvPath u) with
    | none =>
      simp only [hb] at h
      cases plain with
      | false => simp at h
      | true =>
        simp only [if_true] at h
        obtain ⟨x, hx, h⟩ := res_bind_eq_ok.1 h
        cases h
        rw [ih hx]
        constructor
        · rintro ⟨h1, h2⟩; exact ⟨by simp [h1], h2⟩
        · rintro ⟨h1, f, hf⟩
          rcases List.mem_cons.1 h1 with rfl | h1
          · obtain ⟨e, he⟩ := loadVersion_none (w := w) (env := env) hb
            rw [he] at hf; cases hf
          · exact ⟨h1, f, hf⟩
    | some b =>
      simp only [hb] at h
      obtain ⟨y, hy, h⟩ := res_bind_eq_ok.1 h
      obtain ⟨x, hx, h⟩ := res_bind_eq_ok.1 h
      cases h
      rw [List.mem_cons, ih hx]
      constructor
      · rintro (he | ⟨h1, h2⟩)
        · cases he; exact ⟨by simp, y.2, hy⟩
        · exact ⟨by simp [h1], h2⟩
      · rintro ⟨h1, f, hf⟩
        rcases List.mem_cons.1 h1 with rfl | h1
        · rw [hy] at hf; cases hf; exact Or.inl rfl
        · exact Or.inr ⟨h1, f, hf⟩

theorem mem_allDigests {inv : Inv} {vis : AMap Str Inv} {a : Str} : a ∈ allDigests inv vis ↔
    a = inv.digestAlg ∨ ∃ v i, (v, i) ∈ vis ∧ (a = i.digestAlg ∨ a ∈ mkeys i.fixity) := by
  unfold allDigests
  rw [mem_slicesCompact, mem_sortStr, List.mem_cons, List.mem_flatMap]
  simp only [List.mem_cons, Prod.exists]

theorem checksums_isSome {w : World} {algs : List Str} {data : Bytes} :
    (∃ cs, checksums w algs data = some cs) ↔ ∀ a ∈ algs, ∃ h, w.hash a = some h := by
  unfold checksums
  induction algs with
  | nil => simp
  | cons b algs ih =>
    rw [List.forall_mem_cons, ← ih, List.mapM_cons]
    cases hb : w.hash b with
    | none => simp
    | some hf =>
      cases algs.mapM (fun a => (w.hash a).map (fun h => (a, h data))) with
      | none => simp
      | some cs => simp

theorem contentManifest_ok {w : World} {fs : FS} {algs : List Str} (l : List Str) (fm : FileManifest) :
    (∃ fm', contentManifest w fs algs fm l = .ok fm') ↔ (l ≠ [] → ∀ a ∈ algs, ∃ h, w.hash a = some h) := by
  induction l generalizing fm with
  | nil => simp [contentManifest]
  | cons f l ih =>
    rw [contentManifest]
    cases hc : checksums w algs ((mget fs f).getD []) with
    | none =>
      simp only [reduceCtorEq, exists_false, ne_eq, not_false_eq_true, true_imp_iff, false_iff]
      intro hall
      obtain ⟨cs, hcs⟩ := (checksums_isSome (data := (mget fs f).getD [])).2 hall
      rw [hc] at hcs; cases hcs
    | some cs =>
      simp only [ne_eq, reduceCtorEq, not_false_eq_true, true_imp_iff]
      rw [ih]
      have := (checksums_isSome (w := w) (algs := algs) (data := (mget fs f).getD [])).1 ⟨cs, hc⟩
      exact ⟨fun _ => this, fun h _ => h⟩

/-- which algorithms the table of digests has -/
theorem contentManifest_algs {w : World} {fs : FS} {algs : List Str} {l : List Str} {fm : FileManifest}
    (h : contentManifest w fs algs [] l = .ok fm) (a : Str) :
    (∃ cs, mget fm a = some cs) ↔ l ≠ [] ∧ a ∈ algs := by
  have aux : ∀ (f : Str) (cs : List (Str × Str)) (fm : FileManifest),
      (∃ c, mget (cs.foldl (addSum f) fm) a = some c) ↔ (∃ c, mget fm a = some c) ∨ a ∈ mkeys cs := by
    intro f cs
    induction cs with
    | nil => intro fm; simp
    | cons x cs ih =>
      intro fm
      rw [List.foldl_cons, ih, mkeys_cons, List.mem_cons]
      have : (∃ c, mget (addSum f fm x) a = some c) ↔ (∃ c, mget fm a = some c) ∨ a = x.1 := by
        unfold addSum
        by_cases ha : a = x.1
        · subst ha; rw [mget_mset_self]; simp
        · rw [mget_mset_ne _ (Ne.symm ha)]; simp [ha]
      rw [this]; tauto
  have gen : ∀ (l : List Str) (fm fm' : FileManifest), contentManifest w fs algs fm l = .ok fm' →
      ((∃ c, mget fm' a = some c) ↔ (∃ c, mget fm a = some c) ∨ (l ≠ [] ∧ a ∈ algs)) := by
    intro l
    induction l with
    | nil => intro fm fm' h; cases h; simp
    | cons g l ih =>
      intro fm fm' h
      rw [contentManifest] at h
      cases hc : checksums w algs ((mget fs g).getD []) with
      | none => rw [hc] at h; cases h
      | some cs =>
        rw [hc] at h
        rw [ih _ _ h, aux]
        have hk : a ∈ mkeys cs ↔ a ∈ algs := by
          constructor
          · intro hk
            obtain ⟨⟨a', dg⟩, he, rfl⟩ := List.mem_map.1 hk
            exact ((mem_checksums hc _ _).1 he).1
          · intro hk
            obtain ⟨hf, hh⟩ := (checksums_isSome (w := w) (data := (mget fs g).getD [])).1 ⟨cs, hc⟩ a hk
            exact mem_mkeys_of_mem ((mem_checksums hc a _).2 ⟨hk, hf, hh, rfl⟩)
        rw [hk]
        simp only [ne_eq, reduceCtorEq, not_false_eq_true, true_and]
        tauto
  simpa using gen l [] fm h

theorem filesFlat_ok {inv : Inv} : (∃ x, filesFlat inv = .ok x) ↔ PathsSlashed inv := by
  unfold filesFlat PathsSlashed
  simp only
  constructor
  · rintro ⟨x, h⟩ d m p hd hp
    split at h
    · cases h
    · rename_i hc
      by_contra hs
      apply hc
      rw [List.any_eq_true]
      exact ⟨p, List.mem_flatMap.2 ⟨_, hd, hp⟩, by simpa using hs⟩
  · intro h
    rw [if_neg]
    · exact ⟨_, rfl⟩
    · intro hc
      obtain ⟨p, hp, hs⟩ := List.any_eq_true.1 hc
      obtain ⟨⟨d, m⟩, hd, hp⟩ := List.mem_flatMap.1 hp
      exact absurd (h d m p hd hp) (by simpa using hs)

theorem bind_isOk {α β : Type} {a : Res α} {f : α → Res β} :
    (∃ y, (a >>= f) = .ok y) ↔ ∃ x, a = .ok x ∧ ∃ y, f x = .ok y := by
  constructor
  · rintro ⟨y, h⟩
    obtain ⟨x, hx, h⟩ := res_bind_eq_ok.1 h
    exact ⟨x, hx, y, h⟩
  · rintro ⟨x, hx, y, hy⟩
    exact ⟨y, by rw [hx, res_bind_ok, hy]⟩

theorem checkFiles_ok_iff {inv : Inv} {fm : FileManifest} (hf : fm ≠ []) : (∃ f, checkFiles inv fm = .ok f) ↔
    (∃ cs, mget fm inv.digestAlg = some cs) ∧ ∀ a ∈ mkeys inv.fixity, ∃ cs, mget fm a = some cs := by
  unfold checkFiles
  cases hm : mget fm inv.digestAlg with
  | none => simp [hf]
  | some cs =>
    simp only [Option.some.injEq, exists_eq', true_and]
    rw [bind_isOk]
    have hc : (∃ x, collect (checkFixityAlg fm) inv.fixity = .ok x) ↔ ∀ a ∈ mkeys inv.fixity, ∃ cs, mget fm a = some cs := by
      rw [collect_ok_iff]
      have : ∀ e : Str × DMap, (∃ g, checkFixityAlg fm e = .ok g) ↔ ∃ cs, mget fm e.1 = some cs := by
        intro e
        unfold checkFixityAlg
        cases mget fm e.1 <;> simp
      simp only [this]
      constructor
      · intro h a ha
        obtain ⟨e, he, rfl⟩ := List.mem_map.1 ha
        exact h e he
      · intro h e he
        exact h e.1 (List.mem_map.2 ⟨e, he, rfl⟩)
    rw [← hc]
    constructor
    · rintro ⟨x, hx, _⟩; exact ⟨x, hx⟩
    · rintro ⟨x, hx⟩; exact ⟨x, hx, _, rfl⟩

theorem checkFiles_nil (inv : Inv) : checkFiles inv [] = .ok [] := rfl

/-- Checking the files and versions of an object comes to an end (no crash, no abort) exactly if the object is
`Checkable`. -/
theorem checkFilesAndVersions_isOk {w : World} {env : Env} {plain : Bool} {fs : FS} {inv : Inv} :
    (∃ F, checkFilesAndVersions w env plain fs inv = .ok F) ↔ Checkable w env plain fs inv := by
  have hwalk : (∃ f, collect (walkFnd plain fs inv) (getVersionStrings inv) = .ok f) ↔
      (∀ v ∈ getVersionStrings inv, ∃ p b, mget fs (v ++ '/' :: p) = some b) ∧
      (plain = false → ∀ v ∈ getVersionStrings inv, ∃ p b, mget fs (v ++ '/' :: inv.contentDir ++ p) = some b) := by
    rw [collect_ok_iff]
    have hd : ∀ v, hasDir fs v = true ↔ ∃ p b, mget fs (v ++ '/' :: p) = some b := by
      intro v
      rw [hasDir_iff]
      constructor
      · rintro ⟨p, hp⟩
        obtain ⟨hk, r, rfl⟩ := mem_filesUnder.1 hp
        obtain ⟨b, hb⟩ := Option.isSome_iff_exists.1 (mget_isSome_iff.2 hk)
        exact ⟨r, b, hb⟩
      · rintro ⟨p, b, hb⟩
        exact ⟨_, mem_filesUnder.2 ⟨mget_isSome_iff.1 (by rw [hb]; rfl), p, rfl⟩⟩
    have hcf : ∀ v, contentFiles fs inv v ≠ [] ↔ ∃ p b, mget fs (v ++ '/' :: inv.contentDir ++ p) = some b := by
      intro v
      constructor
      · intro h
        obtain ⟨x, hx⟩ := List.exists_mem_of_ne_nil _ h
        unfold contentFiles at hx
        rw [List.mem_filter] at hx
        obtain ⟨t, ht⟩ := List.isPrefixOf_iff_prefix.1 hx.2
        obtain ⟨b, hb⟩ := Option.isSome_iff_exists.1 (mget_isSome_iff.2 (mem_filesUnder.1 hx.1).1)
        exact ⟨t, b, by rw [ht]; exact hb⟩
      · rintro ⟨p, b, hb⟩
        refine List.ne_nil_of_mem (a := v ++ '/' :: inv.contentDir ++ p) ?_
        unfold contentFiles
        rw [List.mem_filter, mem_filesUnder]
        exact ⟨⟨mget_isSome_iff.1 (by rw [hb]; rfl), inv.contentDir ++ p, by simp⟩,
          List.isPrefixOf_iff_prefix.2 ⟨_, rfl⟩⟩
    have hone : ∀ v, (∃ f, walkFnd plain fs inv v = .ok f) ↔ (hasDir fs v = true) ∧
        (plain = false → contentFiles fs inv v ≠ []) := by
      intro v
      unfold walkFnd
      cases hasDir fs v <;> cases plain <;> by_cases hc : contentFiles fs inv v = [] <;> simp [hc]
    simp only [hone, hd, hcf]
    constructor
    · intro h; exact ⟨fun v hv => (h v hv).1, fun hp v hv => (h v hv).2 hp⟩
    · rintro ⟨h1, h2⟩ v hv; exact ⟨h1 v hv, fun hp => h2 hp v hv⟩
  have hinv : ∀ {v : Str}, mget fs (verInvPath v) ≠ none ↔ ∃ b, mget fs (verInvPath v) = some b := by
    intro v; rw [← Option.isSome_iff_exists, Option.isSome_iff_ne_none]
  -- files of the version folders
  have hfiles : (∀ v ∈ getVersionStrings inv, ∃ p b, mget fs (v ++ '/' :: p) = some b) →
      ((getVersionStrings inv).flatMap (filesUnder fs) ≠ [] ↔ getVersionStrings inv ≠ []) := by
    intro hfol
    constructor
    · intro h h0; apply h; rw [h0]; rfl
    · intro h
      obtain ⟨v, hv⟩ := List.exists_mem_of_ne_nil _ h
      obtain ⟨p, b, hb⟩ := hfol v hv
      exact List.ne_nil_of_mem (List.mem_flatMap.2 ⟨v, hv, mem_filesUnder.2 ⟨mget_isSome_iff.1 (by rw [hb]; rfl), p, rfl⟩⟩)
  constructor
  · rintro ⟨F, hF⟩
    obtain ⟨f1, vis, fm, f2, cd, f3, f4, f5, f6, f7, h1, hv, hm, h2, hcd, h3, h4, h5, h6, h7, rfl⟩ :=
      checkFilesAndVersions_ok hF
    have W := hwalk.1 ⟨f1, h1⟩
    have V := (versionInventories_ok _).1 ⟨vis, hv⟩
    have M := (contentManifest_ok _ _).1 ⟨fm, hm⟩
    rw [hfiles W.1] at M
    have A := contentManifest_algs hm
    have hmem := mem_versionInventories hv
    refine ⟨W.1, W.2, ?_, ?_, ?_, ?_, ?_, ?_, ?_, ?_⟩
    · intro v hvv hp
      rw [← hinv]
      intro hnone
      rcases hp with hp | hp
      · rw [(V v hvv).1 hnone] at hp; cases hp
      · cases hg : getVersionStrings inv with
        | nil => rw [hg] at hvv; simp at hvv
        | cons u l =>
          rw [hg] at hp; simp only [List.head?_cons, Option.some.injEq] at hp; subst hp
          obtain ⟨i, hi, _⟩ := hcd _ _ hg
          obtain ⟨_, f, hf⟩ := (hmem _ _).1 (mem_of_mget hi)
          obtain ⟨e, he⟩ := loadVersion_none (w := w) (env := env) hnone
          rw [he] at hf; cases hf
    · intro v hvv hb; exact (V v hvv).2 hb
    · intro hne; exact M hne _ (alg_mem_allDigests _ _)
    · intro v hvv i f hl a ha
      exact M (List.ne_nil_of_mem hvv) a (mem_allDigests.2 (Or.inr ⟨v, i, (hmem v i).2 ⟨hvv, f, hl⟩, ha⟩))
    · intro hne a ha
      have hfm : fm ≠ [] := by
        rintro rfl
        have := (A inv.digestAlg).2 ⟨(hfiles W.1).2 hne, alg_mem_allDigests _ _⟩
        simp at this
      have := ((checkFiles_ok_iff hfm).1 ⟨f2, h2⟩).2 a ha
      rw [A, mem_allDigests] at this
      rcases this.2 with h | ⟨v, i, hvi, h⟩
      · exact Or.inl h
      · obtain ⟨hvv, f, hf⟩ := (hmem v i).1 hvi
        exact Or.inr ⟨v, i, f, hvv, hf, h⟩
    · intro v hvv i f hl u hu
      obtain ⟨g, hg⟩ := collect_ok_iff.1 ⟨f4, h4⟩ (v, i) ((hmem v i).2 ⟨hvv, f, hl⟩)
      unfold crossFnd at hg
      obtain ⟨c, hc, _⟩ := res_bind_eq_ok.1 hg
      obtain ⟨e, he, rfl⟩ := List.mem_map.1 hu
      obtain ⟨s, hs⟩ := collect_ok_iff.1 ⟨c, hc⟩ e he
      unfold sameVersionFnd at hs
      split at hs
      · cases hs
      · rename_i x hx; exact mget_isSome_iff.1 (by rw [hx]; rfl)
    · unfold missingFnd at h6
      obtain ⟨x, hx, _⟩ := res_bind_eq_ok.1 h6
      exact filesFlat_ok.1 ⟨x, hx⟩
    · intro v hvv i f hl
      obtain ⟨g, hg⟩ := collect_ok_iff.1 ⟨f5, h5⟩ (v, i) ((hmem v i).2 ⟨hvv, f, hl⟩)
      unfold missingFnd at hg
      obtain ⟨x, hx, _⟩ := res_bind_eq_ok.1 hg
      exact filesFlat_ok.1 ⟨x, hx⟩
  · intro C
    obtain ⟨f1, h1⟩ := hwalk.2 ⟨C.folder, C.content⟩
    obtain ⟨vis, hv⟩ := (versionInventories_ok (w := w) (env := env) (plain := plain) (fs := fs)
      (getVersionStrings inv)).2 (by
        intro v hvv
        refine ⟨?_, C.loads v hvv⟩
        intro hnone
        cases hp : plain with
        | true => rfl
        | false =>
          obtain ⟨b, hb⟩ := C.inventory v hvv (Or.inl hp)
          rw [hnone] at hb; cases hb)
    have hmem := mem_versionInventories hv
    have halg : getVersionStrings inv ≠ [] → ∀ a ∈ allDigests inv vis.1, ∃ h, w.hash a = some h := by
      intro hne a ha
      rcases mem_allDigests.1 ha with rfl | ⟨v, i, hvi, h⟩
      · exact C.rootAlg hne
      · obtain ⟨hvv, f, hf⟩ := (hmem v i).1 hvi
        exact C.algs v hvv i f hf a h
    obtain ⟨fm, hm⟩ := (contentManifest_ok (w := w) (fs := fs) (algs := allDigests inv vis.1)
      ((getVersionStrings inv).flatMap (filesUnder fs)) []).2 (by rw [hfiles C.folder]; exact halg)
    have A : ∀ a, (∃ cs, mget fm a = some cs) ↔ getVersionStrings inv ≠ [] ∧ a ∈ allDigests inv vis.1 := fun a =>
      (contentManifest_algs hm a).trans (and_congr_left' (hfiles C.folder))
    have hfm : getVersionStrings inv ≠ [] → fm ≠ [] := by
      rintro hne rfl
      have := (A inv.digestAlg).2 ⟨hne, alg_mem_allDigests _ _⟩
      simp at this
    have hfm0 : getVersionStrings inv = [] → fm = [] := by
      intro h0
      rw [h0] at hm
      simp only [List.flatMap_nil, contentManifest] at hm
      cases hm; rfl
    obtain ⟨f2, h2⟩ : ∃ f2, checkFiles inv fm = .ok f2 := by
      by_cases hne : getVersionStrings inv = []
      · rw [hfm0 hne]; exact ⟨_, checkFiles_nil _⟩
      · rw [checkFiles_ok_iff (hfm hne), A]
        refine ⟨⟨hne, alg_mem_allDigests _ _⟩, ?_⟩
        intro a ha
        rw [A, mem_allDigests]
        refine ⟨hne, ?_⟩
        rcases C.fixity hne a ha with h | ⟨v, i, f, hvv, hl, h⟩
        · exact Or.inl h
        · exact Or.inr ⟨v, i, (hmem v i).2 ⟨hvv, f, hl⟩, h⟩
    obtain ⟨cd, hcd⟩ : ∃ cd, firstContentDir vis.1 (getVersionStrings inv) = .ok cd := by
      cases hg : getVersionStrings inv with
      | nil => exact ⟨_, rfl⟩
      | cons v l =>
        have hvv : v ∈ getVersionStrings inv := by rw [hg]; simp
        obtain ⟨b, hb⟩ := C.inventory v hvv (Or.inr (by rw [hg]; rfl))
        obtain ⟨y, hy⟩ := C.loads v hvv ⟨b, hb⟩
        have hin : v ∈ mkeys vis.1 := mem_mkeys_of_mem ((hmem v y.1).2 ⟨hvv, y.2, hy⟩)
        obtain ⟨i, hi⟩ := Option.isSome_iff_exists.1 (mget_isSome_iff.2 hin)
        rw [firstContentDir, hi]; exact ⟨_, rfl⟩
    have hvis : ∀ e ∈ vis.1, e.1 ∈ getVersionStrings inv ∧ ∃ f, loadVersion w env fs e.1 = .ok (e.2, f) := fun e he =>
      (hmem e.1 e.2).1 he
    obtain ⟨f3, h3⟩ := (collect_ok_iff (f := versionDirFnd fs fm cd) (l := vis.1)).2 (by
      intro e he
      obtain ⟨hvv, f, hl⟩ := hvis e he
      have hne := List.ne_nil_of_mem hvv
      unfold versionDirFnd
      rw [bind_isOk]
      obtain ⟨g, hg⟩ := (checkFiles_ok_iff (inv := e.2) (hfm hne)).2 (by
        refine ⟨(A _).2 ⟨hne, mem_allDigests.2 (Or.inr ⟨e.1, e.2, he, Or.inl rfl⟩)⟩, fun a ha => (A _).2 ⟨hne, ?_⟩⟩
        exact mem_allDigests.2 (Or.inr ⟨e.1, e.2, he, Or.inr ha⟩))
      exact ⟨g, hg, _, rfl⟩)
    obtain ⟨f4, h4⟩ := (collect_ok_iff (f := crossFnd inv) (l := vis.1)).2 (by
      intro e he
      obtain ⟨hvv, f, hl⟩ := hvis e he
      unfold crossFnd
      rw [bind_isOk]
      obtain ⟨g, hg⟩ := (collect_ok_iff (f := sameVersionFnd inv e.1) (l := e.2.versions)).2 (by
        intro u hu
        obtain ⟨x, hx⟩ := Option.isSome_iff_exists.1 (mget_isSome_iff.2
          (C.known e.1 hvv e.2 f hl u.1 (List.mem_map.2 ⟨u, hu, rfl⟩)))
        unfold sameVersionFnd
        rw [hx]; exact ⟨_, rfl⟩)
      exact ⟨g, hg, _, rfl⟩)
    have hmiss : ∀ (found : List Str) (v : Str) (i : Inv), PathsSlashed i → ∃ g, missingFnd found v i = .ok g := by
      intro found v i hi
      unfold missingFnd
      rw [bind_isOk]
      obtain ⟨x, hx⟩ := filesFlat_ok.2 hi
      exact ⟨x, hx, _, rfl⟩
    have hextra : ∀ (u v : Str) (i : Inv), PathsSlashed i → ∃ g, extraFnd fs inv u v i = .ok g := by
      intro u v i hi
      unfold extraFnd
      split
      · exact ⟨_, rfl⟩
      · rw [bind_isOk]
        obtain ⟨x, hx⟩ := filesFlat_ok.2 hi
        exact ⟨x, hx, _, rfl⟩
    obtain ⟨f5, h5⟩ := (collect_ok_iff (f := fun (e : Str × Inv) =>
      missingFnd ((getVersionStrings inv).flatMap (filesUnder fs)) e.1 e.2) (l := vis.1)).2 (by
      intro e he
      obtain ⟨hvv, f, hl⟩ := hvis e he
      exact hmiss _ _ _ (C.paths e.1 hvv e.2 f hl))
    obtain ⟨f6, h6⟩ := hmiss ((getVersionStrings inv).flatMap (filesUnder fs)) [] inv C.rootPaths
    obtain ⟨f7, h7⟩ := (collect_ok_iff (f := fun (v : Str) => collect (fun (e : Str × Inv) => extraFnd fs inv v e.1 e.2) vis.1 >>= fun a =>
        extraFnd fs inv v inv.head inv >>= fun b => .ok (a ++ b)) (l := getVersionStrings inv)).2 (by
      intro v hvv
      rw [bind_isOk]
      obtain ⟨a, ha⟩ := (collect_ok_iff (f := fun (e : Str × Inv) => extraFnd fs inv v e.1 e.2) (l := vis.1)).2 (by
        intro e he
        obtain ⟨hvv', f, hl⟩ := hvis e he
        exact hextra _ _ _ (C.paths e.1 hvv' e.2 f hl))
      obtain ⟨b, hb⟩ := hextra v inv.head inv C.rootPaths
      exact ⟨a, ha, _, by rw [hb]; rfl⟩)
    unfold checkFilesAndVersions
    simp only
    rw [h1, res_bind_ok, hv, res_bind_ok, hm, res_bind_ok, h2, res_bind_ok, hcd, res_bind_ok, h3, res_bind_ok, h4,
      res_bind_ok, h5, res_bind_ok, h6, res_bind_ok, h7, res_bind_ok]
    exact ⟨_, rfl⟩

/-- The full claim: validation of any folder comes to an end with a list of findings. -/
def C76_full : Prop := ∀ (w : World) (env : Env) (plain : Bool) (blank : Inv) (fs : FS) (folder : Str),
  ∃ F, checkFolder w env plain blank fs folder = .ok F

/-- **C76, exactly when it holds.** Validation of an object whose root inventory exists and was loaded comes to an end
exactly if the object is `Checkable`. -/
theorem C76_completes_iff {w : World} {env : Env} {plain : Bool} {blank : Inv} {fs : FS} {folder : Str} {inv : Inv}
    {f : List Fnd} {b : Bytes} (hl : loadByFolder w env plain blank fs folder = .ok (inv, f))
    (hb : mget fs (folder ++ "/inventory.json".toList) = some b) :
    (∃ F, checkFolder w env plain blank fs folder = .ok F) ↔ Checkable w env plain (subFS fs folder) inv := by
  have hne : ¬ mget (subFS fs folder) rootInvPath = none := by
    rw [mget_subFS]
    show ¬ mget fs (folder ++ "/inventory.json".toList) = none
    rw [hb]; simp
  rw [← checkFilesAndVersions_isOk]
  unfold checkFolder
  simp only [hl, if_neg hne]
  rw [bind_isOk]
  unfold checkObject
  constructor
  · rintro ⟨g, hg, _⟩
    obtain ⟨x, hx, _⟩ := res_bind_eq_ok.1 hg
    exact ⟨x, hx⟩
  · rintro ⟨x, hx⟩
    exact ⟨_, by rw [hx]; rfl, _, rfl⟩

/-- A folder that cannot be loaded as an object is a finding, not an abort. -/
theorem C76_unloadable {w : World} {env : Env} {plain : Bool} {blank : Inv} {fs : FS} {folder : Str} {m : String}
    (h : loadByFolder w env plain blank fs folder = .error (.error m)) :
    checkFolder w env plain blank fs folder = .ok [err 1 [folder]] := by
  unfold checkFolder; rw [h]

/-- C76 is violated: a version whose folder is missing ends validation of any object without findings. -/
theorem C76_full_fails_folder {w : World} {env : Env} {plain : Bool} {blank : Inv} {fs : FS} {folder : Str} {inv : Inv}
    {f : List Fnd} {b : Bytes} (hl : loadByFolder w env plain blank fs folder = .ok (inv, f))
    (hb : mget fs (folder ++ "/inventory.json".toList) = some b) {v : Str} (hv : v ∈ getVersionStrings inv)
    (hm : ∀ p, mget fs (folder ++ '/' :: (v ++ '/' :: p)) = none) :
    ¬ ∃ F, checkFolder w env plain blank fs folder = .ok F := by
  rw [C76_completes_iff hl hb]
  intro C
  obtain ⟨p, b', h⟩ := C.folder v hv
  rw [mget_subFS] at h
  have := hm p
  unfold under at h
  rw [h] at this; cases this

/-- C76 is violated: a version without content ends validation of any object on a local disk. -/
theorem C76_full_fails_content {w : World} {env : Env} {blank : Inv} {fs : FS} {folder : Str} {inv : Inv}
    {f : List Fnd} {b : Bytes} (hl : loadByFolder w env false blank fs folder = .ok (inv, f))
    (hb : mget fs (folder ++ "/inventory.json".toList) = some b) {v : Str} (hv : v ∈ getVersionStrings inv)
    (hm : ∀ p, mget fs (folder ++ '/' :: (v ++ '/' :: inv.contentDir ++ p)) = none) :
    ¬ ∃ F, checkFolder w env false blank fs folder = .ok F := by
  rw [C76_completes_iff hl hb]
  intro C
  obtain ⟨p, b', h⟩ := C.content rfl v hv
  rw [mget_subFS] at h
  have := hm p
  unfold under at h
  rw [h] at this; cases this

/-- C76 is violated: so does a folder with a declaration and without inventory. -/
theorem C76_full_fails_inventory {w : World} {env : Env} {blank : Inv} {fs : FS} {folder v : Str}
    (hd : getVersion objDecl (topFiles (subFS fs folder)) = .version v)
    (hb : mget fs (folder ++ "/inventory.json".toList) = none) :
    checkFolder w env false blank fs folder = .error (.panic "nil dereference: manifest") := by
  have hn : mget (subFS fs folder) rootInvPath = none := by
    rw [mget_subFS]; exact hb
  unfold checkFolder loadByFolder
  rw [hd]
  unfold loadInventory
  simp only [hn]
  simp

/-- the example object without the folder of its version, without content, without inventory in the version -/
def ockNoFolder : FS := ockFS.filter (fun e => !hasPrefix e.1 "o/v1/".toList)
def ockNoContent : FS := ockFS.filter (fun e => !hasPrefix e.1 "o/v1/content".toList)
def ockNoVersionInv : FS := ockFS.filter (fun e => !hasPrefix e.1 "o/v1/inventory.json".toList)
def ockNoInv : FS := ockFS.filter (fun e => !hasPrefix e.1 "o/inventory.json".toList)

example : checkFolder ockWorld exEnv false ockInv ockNoFolder "o".toList =
    .error (.panic "nil dereference: directory entry") := by decide
example : checkFolder ockWorld exEnv false ockInv ockNoContent "o".toList = .error (.error "cannot stat") := by decide
example : checkFolder ockWorld exEnv true ockInv ockNoVersionInv "o".toList =
    .error (.panic "nil dereference: inventory") := by decide
example : checkFolder ockWorld exEnv false ockInv ockNoInv "o".toList =
    .error (.panic "nil dereference: manifest") := by decide

theorem C76_full_fails : ¬ C76_full := by
  intro h
  obtain ⟨F, hF⟩ := h ockWorld exEnv true ockInv ockNoFolder "o".toList
  have : checkFolder ockWorld exEnv true ockInv ockNoFolder "o".toList =
    .error (.panic "nil dereference: directory entry") := by decide
  rw [this] at hF; cases hF

example : Checkable ockWorld exEnv false (subFS ockFS "o".toList) ockInv :=
  (C76_completes_iff (f := []) (b := [9]) (by decide) (by decide)).1 ⟨_, ock_accepted⟩

end Gocfl
