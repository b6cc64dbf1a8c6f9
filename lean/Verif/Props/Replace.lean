import Verif.Props.RoundTrip
import Verif.Props.Alike

/-! # An update replaces what changed (C161) -/

namespace Gocfl

/-- adding a path that the head has -/
theorem addName_present {inv inv' : Inv} {n : Nat} (hg : GapFree inv n) (hn : 0 < n) {mp d p : Str} (hd : d ≠ [])
    (hone : ∀ e e', HasFile inv inv.head p e → HasFile inv inv.head p e' → e = e') (hp : HasPath inv inv.head p)
    (h : addName inv mp d p = .ok inv') :
    (∀ q e, HasFile inv' inv.head q e ↔ (q = p ∧ e = d) ∨ (q ≠ p ∧ HasFile inv inv.head q e)) ∧
    (¬ HasFile inv inv.head p d → inv'.modified = true) := by
  obtain ⟨s, dup, upd, hs, hdup, hupd, hs', _, _, hm, hh⟩ := addName_ok h
  have hf0 : ∀ q e, HasFile inv inv.head q e ↔ InSt s q e := fun q e => hasFile_head hg.nodup hs
  obtain ⟨x, hx⟩ := hp
  have hdig : digestOf s p = some x := by
    cases hc : digestOf s p with
    | none => exact absurd ((hf0 p x).1 hx) (digestOf_none.1 hc x)
    | some y => rw [hone y x ((hf0 p y).2 (digestOf_some hc)) hx]
  obtain ⟨r, hr, hrd⟩ := (alreadyExists_ok hd).1 hdup
  obtain ⟨r', hr', hru⟩ := (isUpdate_ok hd).1 hupd
  rw [hr] at hr'; cases hr'
  have hrx := lastDigest_head hg hn hs hdig hr
  subst hrx
  have key : ∀ q e, HasFile inv' inv.head q e ↔ (InSt s q e ∧ (upd = true → q ≠ p)) ∨ (dup = false ∧ q = p ∧ e = d) := by
    intro q e
    rw [← hh.head, hasFile_head (hh.nodup hg.nodup) hs', inSt_stAddName]
  by_cases hxd : x = d
  · subst hxd
    have hd1 : dup = true := by rw [hrd]; simp
    have hu1 : upd = false := by rw [hru]; simp
    subst hd1 hu1
    refine ⟨fun q e => ?_, fun hc => absurd hx hc⟩
    rw [key, ← hf0]
    constructor
    · rintro (⟨h1, _⟩ | ⟨h1, _⟩)
      · by_cases hq : q = p
        · subst hq; exact Or.inl ⟨rfl, hone _ _ h1 hx⟩
        · exact Or.inr ⟨hq, h1⟩
      · cases h1
    · rintro (⟨rfl, rfl⟩ | ⟨_, h1⟩)
      · exact Or.inl ⟨hx, fun h => by cases h⟩
      · exact Or.inl ⟨h1, fun h => by cases h⟩
  · have hd1 : dup = false := by rw [hrd]; simp [hxd]
    have hu1 : upd = true := by rw [hru]; simp [hxd]
    subst hd1 hu1
    refine ⟨fun q e => ?_, fun _ => by rw [hm]; simp⟩
    rw [key, ← hf0]
    constructor
    · rintro (⟨h1, h2⟩ | ⟨_, h2⟩)
      · exact Or.inr ⟨h2 rfl, h1⟩
      · exact Or.inl h2
    · rintro (h1 | ⟨h1, h2⟩)
      · exact Or.inr ⟨rfl, h1⟩
      · exact Or.inl ⟨h2, fun _ => h1⟩

theorem addFile_present {inv inv' : Inv} {n : Nat} (hg : GapFree inv n) (hn : 0 < n) {mp dig q : Str} {cs : AMap Str Str}
    (hdig : mget cs inv.digestAlg = some dig) (hd : dig ≠ [])
    (hone : ∀ e e', HasFile inv inv.head q e → HasFile inv inv.head q e' → e = e') (hq : HasPath inv inv.head q)
    (h : addFile inv [q] mp cs = .ok inv') :
    (∀ p e, HasFile inv' inv.head p e ↔ (p = q ∧ e = toLower dig) ∨ (p ≠ q ∧ HasFile inv inv.head p e)) ∧
    (¬ HasFile inv inv.head q (toLower dig) → inv'.modified = true) := by
  obtain ⟨dig', h1, h⟩ := addFile_ok h
  rw [hdig] at h1; cases h1
  obtain ⟨f1, f2, _, _, f5⟩ := addFixity_fold inv mp cs
  rw [List.foldlM_cons] at h
  obtain ⟨j, hj, h⟩ := res_bind_eq_ok.1 h
  cases h
  have hf : ∀ v p e, HasFile (cs.foldl (fun i c => addFixity i mp c) inv) v p e ↔ HasFile inv v p e := by
    intro v p e; unfold HasFile; rw [f1]
  obtain ⟨h1, h2⟩ := addName_present (f5.gapFree hg) hn (by simpa [toLower] using hd)
    (fun e e' a b => by rw [f2, hf] at a b; exact hone e e' a b)
    (by obtain ⟨e, he⟩ := hq; exact ⟨e, by rw [f2, hf]; exact he⟩) hj
  simp only [f2, hf] at h1 h2
  exact ⟨h1, h2⟩

/-- the digests of the manifest after one addition -/
theorem addFile_manifestKeys {inv inv' : Inv} {q mp dig : Str} {cs : AMap Str Str} (hdig : mget cs inv.digestAlg = some dig)
    (h : addFile inv [q] mp cs = .ok inv') {d : Str} (hd : d ∈ mkeys inv'.manifest) : d ∈ mkeys inv.manifest ∨ d = toLower dig := by
  obtain ⟨dig', h1, h⟩ := addFile_ok h
  rw [hdig] at h1; cases h1
  obtain ⟨_, _, f3, _, _⟩ := addFixity_fold inv mp cs
  rw [List.foldlM_cons] at h
  obtain ⟨j, hj, h⟩ := res_bind_eq_ok.1 h
  cases h
  obtain ⟨_, _, _, _, _, _, _, hman, _⟩ := addName_ok hj
  rw [hman] at hd
  unfold manAdd at hd
  have f3' : (cs.foldl (fun i c => addFixity i mp c) inv).manifest = inv.manifest := f3
  rw [f3'] at hd
  split at hd
  · obtain ⟨v, hv⟩ := mem_mkeys_iff.1 hd
    rcases mem_mset_sub hv with h1 | h1
    · cases h1; exact Or.inr rfl
    · exact Or.inl (mem_mkeys_of_mem h1)
  · exact Or.inl hd

/-- adding a path the head has not, with a digest it never had -/
theorem addName_absent {inv inv' : Inv} {n : Nat} (hg : GapFree inv n) {mp d p : Str} (hd : d ≠ []) (hp : ¬ HasPath inv inv.head p)
    (hnew : ∀ v, ¬ HasFile inv v p d) (h : addName inv mp d p = .ok inv') :
    (∀ q e, HasFile inv' inv.head q e ↔ (q = p ∧ e = d) ∨ (q ≠ p ∧ HasFile inv inv.head q e)) ∧ inv'.modified = true := by
  obtain ⟨s, dup, upd, hs, hdup, hupd, hs', _, _, hm, hh⟩ := addName_ok h
  have hf0 : ∀ q e, HasFile inv inv.head q e ↔ InSt s q e := fun q e => hasFile_head hg.nodup hs
  have hdf : dup = false := by
    obtain ⟨r, hr, rfl⟩ := (alreadyExists_ok hd).1 hdup
    rcases lastDigest_ok hg hr with ⟨rfl, _⟩ | ⟨k, x, rfl, _, _, hx, _⟩
    · simp
    · have hne : x ≠ d := by
        rintro rfl
        unfold digestAt at hx
        cases hv : mget inv.versions (verName inv.paddingLength (k : Nat)) with
        | none => rw [hv] at hx; simp at hx
        | some ver =>
          rw [hv] at hx
          obtain ⟨ps, a, b⟩ := digestOf_some (s := ver.state) (by simpa using hx)
          exact hnew _ ⟨ver, ps, mem_of_mget hv, a, b⟩
      simp [hne]
  subst hdf
  refine ⟨fun q e => ?_, by rw [hm]; simp⟩
  rw [← hh.head, hasFile_head (hh.nodup hg.nodup) hs', inSt_stAddName, ← hf0]
  constructor
  · rintro (⟨h1, _⟩ | ⟨_, h1⟩)
    · rw [hh.head]
      exact Or.inr ⟨fun hq => hp ⟨e, hq ▸ h1⟩, h1⟩
    · exact Or.inl h1
  · rintro (h1 | ⟨h1, h2⟩)
    · exact Or.inr ⟨rfl, h1⟩
    · rw [hh.head] at h2
      exact Or.inl ⟨h2, fun _ => h1⟩

theorem addFile_absent {inv inv' : Inv} {n : Nat} (hg : GapFree inv n) {mp dig q : Str} {cs : AMap Str Str}
    (hdig : mget cs inv.digestAlg = some dig) (hd : dig ≠ []) (hp : ¬ HasPath inv inv.head q)
    (hnew : ∀ v, ¬ HasFile inv v q (toLower dig)) (h : addFile inv [q] mp cs = .ok inv') :
    (∀ p e, HasFile inv' inv.head p e ↔ (p = q ∧ e = toLower dig) ∨ (p ≠ q ∧ HasFile inv inv.head p e)) ∧ inv'.modified = true := by
  obtain ⟨dig', h1, h⟩ := addFile_ok h
  rw [hdig] at h1; cases h1
  obtain ⟨f1, f2, _, _, f5⟩ := addFixity_fold inv mp cs
  rw [List.foldlM_cons] at h
  obtain ⟨j, hj, h⟩ := res_bind_eq_ok.1 h
  cases h
  have hf : ∀ v p e, HasFile (cs.foldl (fun i c => addFixity i mp c) inv) v p e ↔ HasFile inv v p e := by
    intro v p e; unfold HasFile; rw [f1]
  obtain ⟨h1, h2⟩ := addName_absent (f5.gapFree hg) (by simpa [toLower] using hd)
    (fun ⟨e, he⟩ => hp ⟨e, by rw [f2, hf] at he; exact he⟩) (fun v hc => hnew v ((hf v q _).1 hc)) hj
  simp only [f2, hf] at h1
  exact ⟨h1, h2⟩

/-- the digest of the file is not known to the object, and no other file to add has it -/
def OwnDigest (h : Bytes → Str) (inv : Inv) (files : List InFile) (f : InFile) : Prop :=
  h f.data ∉ mkeys inv.manifest ∧ ∀ g ∈ files, h g.data = h f.data → g = f

/-- The file to add as `q` is one the tool handles: the path is not in the head and never was with this content; or it is
in the head, and (when duplicates are looked for) unchanged or its new content is known nowhere in the object. -/
def Placed (h : Bytes → Str) (dup : Bool) (inv : Inv) (files : List InFile) (f : InFile) (q : Str) : Prop :=
  (¬ HasPath inv inv.head q ∧ ∀ v, ¬ HasFile inv v q (h f.data)) ∨
  (HasPath inv inv.head q ∧ (dup = true → HasFile inv inv.head q (h f.data) ∨ OwnDigest h inv files f))

/-- the head of `inv'` is that of `inv` with the digest of `q` set to `d` -/
def SetPath (inv inv' : Inv) (q d : Str) : Prop :=
  ∀ r e, HasFile inv' inv.head r e ↔ (r = q ∧ e = d) ∨ (r ≠ q ∧ HasFile inv inv.head r e)

/-- one addition -/
theorem objAdd_placed {w : World} {o : Obj} {n : Nat} {h : Bytes → Str} {f : InFile} {files : List InFile} {dup : Bool}
    (hw : WF o.inv n) (hn : 0 < n) (hx : HexHash w) (hL : LowerHash w) (hh : w.hash o.inv.digestAlg = some h)
    (hone : ∀ q e e', HasFile o.inv o.inv.head q e → HasFile o.inv o.inv.head q e' → e = e')
    (hpl : ∀ q, StatePathOf w f q → Placed h dup o.inv files f q)
    (he : (objAdd w o f.path f.area f.data dup).err = none) : ∃ q, StatePathOf w f q ∧
      SetPath o.inv (objAdd w o f.path f.area f.data dup).obj.inv q (h f.data) ∧
      (¬ HasFile o.inv o.inv.head q (h f.data) → (objAdd w o f.path f.area f.data dup).obj.inv.modified = true) ∧
      (∀ d ∈ mkeys (objAdd w o f.path f.area f.data dup).obj.inv.manifest, d ∈ mkeys o.inv.manifest ∨ d = h f.data) := by
  have hne : h f.data ≠ [] := (hx _ _ f.data hh).1
  have hlow : toLower (h f.data) = h f.data := hL _ _ f.data hh
  unfold objAdd at he ⊢
  split at he
  · cases he
  · rename_i hwr
    rw [if_neg hwr]
    cases hb : buildNames w o.inv [f.path] f.area with
    | error e => rw [hb] at he; cases he
    | ok x =>
      obtain ⟨names, mp⟩ := x
      rw [hb] at he
      simp only at he ⊢
      obtain ⟨h1, i, _, _⟩ := buildNames_ok hb
      obtain ⟨q, hq, hn'⟩ : ∃ q, w.statePath f.path f.area = .ok q ∧ names = [q] := by
        rw [List.mapM_cons] at h1
        obtain ⟨q, hq, h1⟩ := res_bind_eq_ok.1 h1
        refine ⟨q, hq, ?_⟩
        cases h1; rfl
      subst hn'
      refine ⟨q, hq, ?_⟩
      have hP := hpl q hq
      -- storing the file
      have hread : ∀ o1 : Obj, o1.inv = o.inv → (addReader w o1 [q] mp f.data).err = none →
          SetPath o.inv (addReader w o1 [q] mp f.data).obj.inv q (h f.data) ∧
          (¬ HasFile o.inv o.inv.head q (h f.data) → (addReader w o1 [q] mp f.data).obj.inv.modified = true) ∧
          (∀ d ∈ mkeys (addReader w o1 [q] mp f.data).obj.inv.manifest, d ∈ mkeys o.inv.manifest ∨ d = h f.data) := by
        intro o1 ho1 he
        unfold addReader at he ⊢
        simp only at he ⊢
        cases hc : checksums w (digestAlgs o1.inv) f.data with
        | none => rw [hc] at he; cases he
        | some cs =>
          rw [hc] at he
          simp only at he ⊢
          obtain ⟨j, hj, ho⟩ := withInv_err he
          rw [ho]
          simp only
          rw [ho1] at hj
          obtain ⟨dig, hd, _⟩ := addFile_ok hj
          obtain ⟨f', hf, hdig⟩ := checksums_get hc hd
          rw [hh] at hf; cases hf
          subst hdig
          have hk := fun d => addFile_manifestKeys hd hj (d := d)
          rw [hlow] at hk
          rcases hP with ⟨p1, p2⟩ | ⟨p1, _⟩
          · have := addFile_absent hw.1 hd hne p1 (by rw [hlow]; exact p2) hj
            rw [hlow] at this
            exact ⟨this.1, fun _ => this.2, fun d hd => hk d hd⟩
          · have := addFile_present hw.1 hn hd hne (hone q) p1 hj
            rw [hlow] at this
            exact ⟨this.1, this.2, fun d hd => hk d hd⟩
      cases dup with
      | false =>
        rw [if_neg (by decide)] at he ⊢
        exact hread _ rfl he
      | true =>
        rw [if_pos rfl] at he ⊢
        rw [hh] at he ⊢
        simp only [List.headD_cons] at he ⊢
        unfold addChecked at he ⊢
        cases ha : alreadyExists o.inv q (h f.data) with
        | error e => simp only [ha] at he; cases he
        | ok t =>
          have hta : t = true → HasFile o.inv o.inv.head q (h f.data) := by
            rintro rfl
            obtain ⟨r, hr, hrd⟩ := (alreadyExists_ok hne).1 ha
            have hr' : r = some (h f.data) := by simpa using hrd.symm
            subst hr'
            rcases hP with ⟨_, p2⟩ | ⟨⟨x, p1⟩, _⟩
            · exfalso
              rcases lastDigest_ok hw.1 hr with ⟨h0, _⟩ | ⟨k, x, h0, _, _, hx, _⟩
              · cases h0
              · cases h0
                unfold digestAt at hx
                cases hv : mget o.inv.versions (verName o.inv.paddingLength (k : Nat)) with
                | none => rw [hv] at hx; simp at hx
                | some ver =>
                  rw [hv] at hx
                  obtain ⟨ps, a, b⟩ := digestOf_some (s := ver.state) (by simpa using hx)
                  exact p2 _ ⟨ver, ps, mem_of_mget hv, a, b⟩
            · obtain ⟨ver, ps, hv, _⟩ := id p1
              have hs : headState o.inv = .ok ver.state := headState_eq_ok.2 ⟨ver, mget_of_mem hw.1.nodup hv, rfl⟩
              cases hc : digestOf ver.state q with
              | none => exact absurd ((hasFile_head hw.1.nodup hs).1 p1) (digestOf_none.1 hc x)
              | some y =>
                have := lastDigest_head hw.1 hn hs hc hr
                cases this
                exact (hasFile_head hw.1.nodup hs).2 (digestOf_some hc)
          have haf : t = false → ¬ HasFile o.inv o.inv.head q (h f.data) := by
            rintro rfl hc
            obtain ⟨r, hr, hrd⟩ := (alreadyExists_ok hne).1 ha
            obtain ⟨ver, ps, hv, _⟩ := id hc
            have hs : headState o.inv = .ok ver.state := headState_eq_ok.2 ⟨ver, mget_of_mem hw.1.nodup hv, rfl⟩
            cases hcd : digestOf ver.state q with
            | none => exact digestOf_none.1 hcd _ ((hasFile_head hw.1.nodup hs).1 hc)
            | some y =>
              have h2 := lastDigest_head hw.1 hn hs hcd hr
              have h3 := hone q y _ ((hasFile_head hw.1.nodup hs).2 (digestOf_some hcd)) hc
              subst h2 h3
              simp at hrd
          cases t with
          | true =>
            simp only [ha] at he ⊢
            have hc := hta rfl
            refine ⟨fun r e => ?_, fun hn => absurd hc hn, fun d hd => Or.inl hd⟩
            show HasFile o.inv o.inv.head r e ↔ _
            constructor
            · intro h1
              by_cases hr : r = q
              · exact Or.inl ⟨hr, hone q _ _ (hr ▸ h1) hc⟩
              · exact Or.inr ⟨hr, h1⟩
            · rintro (⟨rfl, rfl⟩ | ⟨_, h1⟩)
              · exact hc
              · exact h1
          | false =>
            have hnf := haf rfl
            simp only [ha] at he ⊢
            split at he
            · rename_i hdp
              rw [if_pos hdp]
              obtain ⟨j, hj, ho⟩ := withInv_err he
              rw [ho]
              simp only
              have hh' := copyFile_headOnly hj
              have hkn : h f.data ∈ mkeys o.inv.manifest := by
                obtain ⟨⟨m, hm⟩, _⟩ := copyFile_ok hj
                exact mem_mkeys_of_mem (mem_of_mget hm)
              have hnp : ¬ HasPath o.inv o.inv.head q := by
                rcases hP with ⟨p1, _⟩ | ⟨_, p2⟩
                · exact p1
                · rcases p2 rfl with p3 | p3
                  · exact absurd p3 hnf
                  · exact absurd hkn p3.1
              obtain ⟨_, s, hs, ⟨hin, _⟩ | ⟨_, rfl⟩⟩ := copyFile_ok hj
              · exact absurd ((hasFile_head hw.1.nodup hs).2 (mgetD_mem hin)) hnf
              · refine ⟨fun r e => ?_, fun _ => rfl, fun d hd => Or.inl ?_⟩
                · have hs' := headState_set_modified hs (stAppend s (h f.data) q) true
                  rw [← hh'.head, hasFile_head (hh'.nodup hw.1.nodup) hs', inSt_stAppend, hh'.head, ← hasFile_head hw.1.nodup hs]
                  constructor
                  · rintro (h1 | h1)
                    · exact Or.inr ⟨fun hr => hnp ⟨e, hr ▸ h1⟩, h1⟩
                    · exact Or.inl h1
                  · rintro (h1 | ⟨_, h1⟩)
                    · exact Or.inr h1
                    · exact Or.inl h1
                · rw [show ({ setHeadState o.inv (stAppend s (h f.data) q) with modified := true } : Inv).manifest =
                    (setHeadState o.inv (stAppend s (h f.data) q)).manifest from rfl] at hd
                  unfold setHeadState at hd
                  split at hd <;> exact hd
            · rename_i hdp
              rw [if_neg hdp]
              exact hread _ rfl he

theorem SetPath.one {inv inv' : Inv} {q d : Str} (h : SetPath inv inv' q d) (hh : inv'.head = inv.head)
    (hone : ∀ q e e', HasFile inv inv.head q e → HasFile inv inv.head q e' → e = e') :
    ∀ q e e', HasFile inv' inv'.head q e → HasFile inv' inv'.head q e' → e = e' := by
  intro r e e' h1 h2
  rw [hh, h] at h1 h2
  rcases h1 with ⟨a, b⟩ | ⟨a, b⟩ <;> rcases h2 with ⟨a', b'⟩ | ⟨a', b'⟩
  · rw [b, b']
  · exact absurd a a'
  · exact absurd a' a
  · exact hone r e e' b b'

/-- a list of additions -/
theorem addAll_placed {w : World} {n : Nat} {h : Bytes → Str} {dup : Bool} (hn : 0 < n) (hx : HexHash w) (hL : LowerHash w)
    {files : List InFile} {o : Obj} (hw : WF o.inv n) (hh : w.hash o.inv.digestAlg = some h)
    (hone : ∀ q e e', HasFile o.inv o.inv.head q e → HasFile o.inv o.inv.head q e' → e = e')
    (hd : DistinctPaths w files) (hpl : ∀ f ∈ files, ∀ q, StatePathOf w f q → Placed h dup o.inv files f q)
    (he : (runCalls w o (addAll dup files)).err = none) :
    (∀ f ∈ files, ∃ q, StatePathOf w f q) ∧
    (∀ r e, HasFile (runCalls w o (addAll dup files)).obj.inv o.inv.head r e ↔
      (∃ f ∈ files, StatePathOf w f r ∧ e = h f.data) ∨ ((∀ f ∈ files, ¬ StatePathOf w f r) ∧ HasFile o.inv o.inv.head r e)) ∧
    ((∃ f ∈ files, ∃ q, StatePathOf w f q ∧ ¬ HasFile o.inv o.inv.head q (h f.data)) →
      (runCalls w o (addAll dup files)).obj.inv.modified = true) := by
  induction files generalizing o with
  | nil => simp [addAll, runCalls, ok]
  | cons f files ih =>
    have heq : runCalls w o (addAll dup (f :: files)) =
        (objAdd w o f.path f.area f.data dup).andThen (fun o => runCalls w o (addAll dup files)) := rfl
    rw [heq] at he ⊢
    obtain ⟨h1, h2⟩ := andThen_split he
    rw [andThen_none h1]
    obtain ⟨q, hq, hst, hm, hk⟩ := objAdd_placed hw hn hx hL hh hone (hpl f (List.mem_cons_self ..)) h1
    have hrel := (runCall_step (w := w) (U := fun _ _ => True) (o := o) (.add f.path f.area f.data dup) (fun _ _ => trivial)).headOnly
    have hrel : HeadOnly o.inv (objAdd w o f.path f.area f.data dup).obj.inv := hrel
    have hw' : WF (objAdd w o f.path f.area f.data dup).obj.inv n := by
      have := (calls_wf (w := w) hw [.add f.path f.area f.data dup]).1
      have hr1 : runCalls w o [.add f.path f.area f.data dup] = (objAdd w o f.path f.area f.data dup).andThen (fun o => ok o) := rfl
      rw [hr1, andThen_none h1] at this
      exact this
    obtain ⟨hd1, hd2⟩ := List.pairwise_cons.1 hd
    have hsame : ∀ r, r ≠ q → ∀ v e, HasFile (objAdd w o f.path f.area f.data dup).obj.inv v r e ↔ HasFile o.inv v r e := by
      intro r hr v e
      by_cases hv : v = o.inv.head
      · subst hv
        rw [hst]
        simp [hr]
      · exact hrel.hasFile_other hw.1.nodup hv
    have hpl' : ∀ g ∈ files, ∀ r, StatePathOf w g r → Placed h dup (objAdd w o f.path f.area f.data dup).obj.inv files g r := by
      intro g hg r hr
      have hrq : r ≠ q := by rintro rfl; exact hd1 g hg r hq hr
      unfold Placed HasPath OwnDigest
      rw [hrel.head]
      simp only [hsame r hrq]
      rcases hpl g (List.mem_cons_of_mem _ hg) r hr with h3 | ⟨h3, h4⟩
      · exact Or.inl h3
      · refine Or.inr ⟨h3, fun hdup => ?_⟩
        rcases h4 hdup with h5 | ⟨h5, h6⟩
        · exact Or.inl h5
        · refine Or.inr ⟨fun hc => ?_, fun k hk => h6 k (List.mem_cons_of_mem _ hk)⟩
          rcases hk _ hc with h7 | h7
          · exact h5 h7
          · have := h6 f (List.mem_cons_self ..) h7.symm
            subst this
            exact hd1 f hg r hr hr
    obtain ⟨i1, i2, i3⟩ := ih hw' (by rw [hrel.alg]; exact hh) (hst.one hrel.head hone) hd2 hpl' h2
    refine ⟨?_, ?_, ?_⟩
    · intro g hg
      rcases List.mem_cons.1 hg with rfl | hg
      · exact ⟨q, hq⟩
      · exact i1 g hg
    · intro r e
      rw [← hrel.head, i2, hrel.head, hst]
      have hfr : StatePathOf w f r ↔ r = q := by
        constructor
        · intro h3
          have : Except.ok r = Except.ok (ε := GoErr) q := h3.symm.trans hq
          cases this; rfl
        · rintro rfl; exact hq
      constructor
      · rintro (⟨g, hg, h3⟩ | ⟨h3, ⟨h4, h5⟩ | ⟨h4, h5⟩⟩)
        · exact Or.inl ⟨g, List.mem_cons_of_mem _ hg, h3⟩
        · exact Or.inl ⟨f, List.mem_cons_self .., hfr.2 h4, h5⟩
        · refine Or.inr ⟨fun g hg => ?_, h5⟩
          rcases List.mem_cons.1 hg with rfl | hg
          · rw [hfr]; exact h4
          · exact h3 g hg
      · rintro (⟨g, hg, h3, h4⟩ | ⟨h3, h4⟩)
        · rcases List.mem_cons.1 hg with rfl | hg
          · have hrq := hfr.1 h3
            subst hrq
            exact Or.inr ⟨fun k hk => hd1 k hk r hq, Or.inl ⟨rfl, h4⟩⟩
          · exact Or.inl ⟨g, hg, h3, h4⟩
        · exact Or.inr ⟨fun k hk => h3 k (List.mem_cons_of_mem _ hk),
            Or.inr ⟨fun hr => h3 f (List.mem_cons_self ..) (hfr.2 hr), h4⟩⟩
    · rintro ⟨g, hg, r, h3, h4⟩
      rcases List.mem_cons.1 hg with rfl | hg
      · have : Except.ok r = Except.ok (ε := GoErr) q := h3.symm.trans hq
        cases this
        exact (calls_wf (w := w) hw' _).2.2 (hm h4)
      · refine i3 ⟨g, hg, r, h3, ?_⟩
        have hrq : r ≠ q := by rintro rfl; exact hd1 g hg r hq h3
        rw [hrel.head, hsame r hrq]
        exact h4

/-- the session of a command that adds a folder, with or without removal of what is not in it -/
structure AddsJust (s : Session) (dup : Bool) (files : List InFile) : Prop where
  body : s.body = addAll dup files
  before : s.before = []
  after : s.after = []
  rounds : s.rounds = []

/-- The calls add the files, one after the other.  In between extensions may write files of their own; and a file may come
from an extension, as a reader, if duplicates are not looked for and what is not named is not removed. -/
inductive AddsCalls (echo dup : Bool) : List Call → List InFile → Prop where
  | nil : AddsCalls echo dup [] []
  | ext (n : Str) (d : Bytes) {cs : List Call} {files : List InFile} : AddsCalls echo dup cs files →
      AddsCalls echo dup (.ext n d :: cs) files
  | add (f : InFile) {cs : List Call} {files : List InFile} : AddsCalls echo dup cs files →
      AddsCalls echo dup (.add f.path f.area f.data dup :: cs) (f :: files)
  | reader (f : InFile) {cs : List Call} {files : List InFile} : echo = false → dup = false → AddsCalls echo dup cs files →
      AddsCalls echo dup (.reader [f.path] f.area f.data :: cs) (f :: files)

/-- A session that adds the files, while extensions store files of their own. -/
structure AddsFiles (s : Session) (dup : Bool) (files : List InFile) : Prop where
  body : AddsCalls s.echo dup s.body files
  before : AddsCalls s.echo dup s.before []
  after : AddsCalls s.echo dup s.after []
  rounds : s.rounds = []

theorem addsCalls_addAll (echo dup : Bool) (files : List InFile) : AddsCalls echo dup (addAll dup files) files := by
  induction files with
  | nil => exact .nil
  | cons f fs ih => exact .add f ih

theorem AddsJust.addsFiles {s : Session} {dup : Bool} {files : List InFile} (h : AddsJust s dup files) : AddsFiles s dup files := by
  refine ⟨?_, ?_, ?_, h.rounds⟩
  · rw [h.body]; exact addsCalls_addAll _ _ _
  · rw [h.before]; exact .nil
  · rw [h.after]; exact .nil

theorem AddsOnly.just {s : Session} {dup : Bool} {files : List InFile} (h : AddsOnly s dup files) : AddsJust s dup files :=
  ⟨h.body, h.before, h.after, h.rounds⟩

theorem AddsOnly.addsFiles {s : Session} {dup : Bool} {files : List InFile} (h : AddsOnly s dup files) : AddsFiles s dup files :=
  h.just.addsFiles

theorem AddsJust.echo {s : Session} {dup : Bool} {files : List InFile} (h : AddsJust s dup files) (e : Bool) :
    AddsJust { s with echo := e } dup files := ⟨h.body, h.before, h.after, h.rounds⟩

theorem AddsCalls.alike {echo dup : Bool} {cs : List Call} {files : List InFile} (h : AddsCalls echo dup cs files) :
    CallsAlike echo cs (addAll dup files) := by
  induction h with
  | nil => exact .nil
  | ext n d _ ih => exact .ext n d ih
  | add f _ ih => exact .same _ ih
  | reader f he hd _ ih => subst hd; exact .reader _ _ _ he ih

theorem AddsCalls.uses {echo dup : Bool} {cs : List Call} {files : List InFile} (h : AddsCalls echo dup cs files) :
    callsUses cs = callsUses (addAll dup files) := by
  induction h with
  | nil => rfl
  | ext n d _ ih => exact ih
  | add f _ ih => exact congrArg (fun l => (f.path, f.area) :: l) ih
  | reader f he hd _ ih => exact congrArg (fun l => (f.path, f.area) :: l) ih

theorem AddsCalls.contents {echo dup : Bool} {cs : List Call} {files : List InFile} (h : AddsCalls echo dup cs files) {c : Call} {b : Bytes}
    (hc : c ∈ cs) (hb : b ∈ c.contents) : ∃ f ∈ files, f.data = b := by
  induction h with
  | nil => cases hc
  | ext n d _ ih =>
    rcases List.mem_cons.1 hc with rfl | hc
    · cases hb
    · exact ih hc
  | add f _ ih =>
    rcases List.mem_cons.1 hc with rfl | hc
    · exact ⟨f, List.mem_cons_self .., (List.mem_singleton.1 hb).symm⟩
    · obtain ⟨g, h1, h2⟩ := ih hc
      exact ⟨g, List.mem_cons_of_mem _ h1, h2⟩
  | reader f he hd _ ih =>
    rcases List.mem_cons.1 hc with rfl | hc
    · exact ⟨f, List.mem_cons_self .., (List.mem_singleton.1 hb).symm⟩
    · obtain ⟨g, h1, h2⟩ := ih hc
      exact ⟨g, List.mem_cons_of_mem _ h1, h2⟩

/-- The session keeps a file of this path although it is not among its files: it does not mirror, or the path does not
begin with the place of what it mirrors. -/
def StaysIn (w : World) (s : Session) (q : Str) : Prop :=
  s.echo = true → ∀ base, w.statePath ".".toList [] = .ok base → base ≠ ".".toList ∧ ¬ base <+: q

/-- where a session ends that adds files and nothing else -/
theorem justAdds_session {w : World} {inv i : Inv} {n : Nat} {s : Session} {dup : Bool} {files : List InFile}
    (ha : AddsJust s dup files) (hw : WF i (n + 1))
    (hv : newVersion inv s.info.msg s.info.userName s.info.userAddress s.info.now = .ok i) (he : (session w inv s).err = none) :
    (runCalls w ⟨i, [], s.echo, []⟩ (addAll dup files)).err = none ∧
    ((runCalls w ⟨i, [], s.echo, []⟩ (addAll dup files)).obj.inv.modified = true →
      (session w inv s).obj.inv.modified = true ∧
      (session w inv s).obj.inv.head = (runCalls w ⟨i, [], s.echo, []⟩ (addAll dup files)).obj.inv.head ∧
      ∀ q d, HasFile (session w inv s).obj.inv (session w inv s).obj.inv.head q d ↔
        HasFile (runCalls w ⟨i, [], s.echo, []⟩ (addAll dup files)).obj.inv
          (runCalls w ⟨i, [], s.echo, []⟩ (addAll dup files)).obj.inv.head q d ∧
        (StaysIn w s q ∨ ∃ f ∈ files, StatePathOf w f q)) := by
  cases hecho : s.echo with
  | false =>
    obtain ⟨h1, h2⟩ := plain_session ⟨ha.body, ha.before, ha.after, ha.rounds, hecho⟩ hv he
    refine ⟨h1, fun hm => ?_⟩
    rw [h2 hm]
    refine ⟨hm, rfl, fun q d => ⟨fun h => ⟨h, Or.inl fun hc => ?_⟩, fun h => h.1⟩⟩
    rw [hecho] at hc; cases hc
  | true =>
    rw [session_eq_rest hv] at he ⊢
    unfold sessionRest at he ⊢
    rw [ha.body, ha.before, ha.after, ha.rounds, hecho] at he ⊢
    have h0 : runCalls w ⟨i, [], true, []⟩ [] = ok ⟨i, [], true, []⟩ := rfl
    rw [h0, andThen_ok] at he ⊢
    obtain ⟨h1, h2⟩ := andThen_split he
    obtain ⟨h3, h4⟩ := andThen_split h1
    refine ⟨h3, fun hm => ?_⟩
    rw [andThen_none h1, andThen_none h3]
    have hupd : ∀ q, q ∈ (runCalls w ⟨i, [], true, []⟩ (addAll dup files)).obj.updateFiles ↔ ∃ f ∈ files, StatePathOf w f q := by
      intro q
      constructor
      · intro hq
        rcases runCalls_updateFiles hq with hq | ⟨c, hc, hq⟩
        · cases hq
        · obtain ⟨f, hf, rfl⟩ := List.mem_map.1 hc
          exact ⟨f, hf, hq⟩
      · rintro ⟨f, hf, hq⟩
        refine runCalls_updateFiles_of ?_ h3 (Or.inr ⟨_, List.mem_map.2 ⟨f, hf, rfl⟩, hq⟩)
        intro c hc
        obtain ⟨g, _, rfl⟩ := List.mem_map.1 hc
        exact ⟨(nomatch ·), (nomatch ·)⟩
    have hstep := runCalls_step (w := w) (U := fun _ _ => True) (o := ⟨i, [], true, []⟩) (addAll dup files)
      (fun _ _ _ _ => trivial)
    have hec := hstep.echo
    have hwr := hstep.headOnly.wr.trans (newVersion_frame hv).2.2.2.1
    have hw2 := (calls_wf (w := w) (o := ⟨i, [], true, []⟩) hw (addAll dup files)).1
    generalize (runCalls w ⟨i, [], true, []⟩ (addAll dup files)).obj = o at *
    obtain ⟨base, hb⟩ : ∃ base, w.statePath ".".toList [] = .ok base := by
      cases hb : w.statePath ".".toList [] with
      | ok base => exact ⟨base, rfl⟩
      | error e =>
        have h4 : (endUpdate w o [] []).err = none := h4
        unfold endUpdate at h4
        rw [if_neg (by rw [hwr]; simp), if_neg (by rw [hm]; simp), if_pos hec] at h4
        have := (andThen_split h4).1
        unfold objEcho at this
        rw [hb] at this
        cases this
    obtain ⟨k1, k2⟩ := endUpdate_echo hw2 (Nat.succ_pos n) hwr hm hec hb
    have k3 : (endUpdate w o [] []).obj.inv.modified = true := by
      obtain ⟨j, j1, _⟩ := C17_mirror_exact hw2.1 (Nat.succ_pos n) o.updateFiles base
      have hecho : objEcho w o = ok { o with updateFiles := slicesCompact (sortStr o.updateFiles), inv := j } := by
        unfold objEcho
        rw [hb]
        simp only [j1, withInv, ok]
      have hmi : j.modified = true :=
        run_modified (ops := [.echo (slicesCompact (sortStr o.updateFiles)) (if base = ".".toList then [] else base)])
          (by rw [run_single]; exact j1) hm
      have : (endUpdate w o [] []).obj.inv = j := by
        unfold endUpdate
        rw [if_neg (by rw [hwr]; simp), if_neg (by rw [hm]; simp), if_pos hec, hecho, andThen_ok]
        simp only [runCalls, andThen_ok]
        rw [show (withInv { o with updateFiles := slicesCompact (sortStr o.updateFiles), inv := j } (clean j)) =
          ok { o with updateFiles := slicesCompact (sortStr o.updateFiles), inv := j } by rw [clean_modified hmi]; rfl,
          andThen_ok]
        exact storeInventory_trace.1
      rw [this]; exact hmi
    have hinv : (closeObj w (endUpdate w o [] []).obj s.exts).obj.inv = (endUpdate w o [] []).obj.inv := by
      rcases closeObj_cases w (endUpdate w o [] []).obj s.exts with ⟨h, _⟩ | ⟨_, _, _, h, _⟩ | ⟨_, _, _, _, h⟩ <;> (rw [h]; try rfl)
    rw [hinv]
    refine ⟨k3, k1, fun q d => ?_⟩
    rw [k1, k2, ← hupd]
    unfold StaysIn
    constructor
    · rintro ⟨h5, h6⟩
      refine ⟨h5, ?_⟩
      by_cases hq : q ∈ o.updateFiles
      · exact Or.inr hq
      · refine Or.inl fun _ base' hb' => ?_
        rw [hb] at hb'; cases hb'
        exact ⟨fun hc => hq (h6 (Or.inl hc)), fun hc => hq (h6 (Or.inr hc))⟩
    · rintro ⟨h5, h6 | h6⟩
      · refine ⟨h5, fun hc => ?_⟩
        obtain ⟨h7, h8⟩ := h6 hecho base hb
        rcases hc with hc | hc
        · exact absurd hc h7
        · exact absurd hc h8
      · exact ⟨h5, fun _ => h6⟩

/-- where such a session ends -/
theorem adds_session {w : World} {inv i : Inv} {n : Nat} {s : Session} {dup : Bool} {files : List InFile}
    (ha : AddsFiles s dup files) (hw : WF i (n + 1))
    (hv : newVersion inv s.info.msg s.info.userName s.info.userAddress s.info.now = .ok i) (he : (session w inv s).err = none) :
    (runCalls w ⟨i, [], s.echo, []⟩ (addAll dup files)).err = none ∧
    ((runCalls w ⟨i, [], s.echo, []⟩ (addAll dup files)).obj.inv.modified = true →
      (session w inv s).obj.inv.modified = true ∧
      (session w inv s).obj.inv.head = (runCalls w ⟨i, [], s.echo, []⟩ (addAll dup files)).obj.inv.head ∧
      ∀ q d, HasFile (session w inv s).obj.inv (session w inv s).obj.inv.head q d ↔
        HasFile (runCalls w ⟨i, [], s.echo, []⟩ (addAll dup files)).obj.inv
          (runCalls w ⟨i, [], s.echo, []⟩ (addAll dup files)).obj.inv.head q d ∧
        (StaysIn w s q ∨ ∃ f ∈ files, StatePathOf w f q)) := by
  have hal : ∀ {cs : List Call} {fs : List InFile}, AddsCalls s.echo dup cs fs → CallsAlike s.echo cs (addAll dup fs) := fun h => h.alike
  obtain ⟨h1, h2⟩ := session_alike (s := s) (s' := ⟨s.info, s.echo, [], addAll dup files, [], [], s.exts⟩) rfl rfl ha.rounds rfl
    (hal ha.before) (hal ha.body) (hal ha.after) he
  have := justAdds_session (s := ⟨s.info, s.echo, [], addAll dup files, [], [], s.exts⟩) ⟨rfl, rfl, rfl, rfl⟩ hw hv h1
  rw [h2] at this
  exact this

/-- the files of the head version after the session -/
theorem replaced_state {w : World} (hx : HexHash w) (hL : LowerHash w) {N : Nat} {inv : Inv} {s : Session} {dup : Bool}
    {files : List InFile} {h : Bytes → Str} (hw : WF inv N) (ha : AddsFiles s dup files)
    (hh : w.hash inv.digestAlg = some h) (he : (session w inv s).err = none) (hd : DistinctPaths w files)
    (hone : ∀ q d d', HasFile inv inv.head q d → HasFile inv inv.head q d' → d = d')
    (hpl : ∀ f ∈ files, ∀ q, StatePathOf w f q → Placed h dup inv files f q)
    (hch : ∃ f ∈ files, ∃ q, StatePathOf w f q ∧ ¬ HasFile inv inv.head q (h f.data)) :
    (∀ f ∈ files, ∃ q, StatePathOf w f q) ∧ (session w inv s).obj.inv.modified = true ∧
    ∀ q d, HasFile (session w inv s).obj.inv (session w inv s).obj.inv.head q d ↔
      (∃ f ∈ files, StatePathOf w f q ∧ d = h f.data) ∨
        ((∀ f ∈ files, ¬ StatePathOf w f q) ∧ StaysIn w s q ∧ HasFile inv inv.head q d) := by
  obtain ⟨st, hs0, hs1, hv⟩ := newVersion_gapFree hw.1 hw.2 s.info.msg s.info.userName s.info.userAddress s.info.now
  obtain ⟨hg, hk⟩ := newVersion_ok_gapFree hw.1 hw.2 hv
  generalize hi : ({ inv with
        head := verName inv.paddingLength ((N + 1 : Nat) : Int)
        versions := inv.versions ++ [(verName inv.paddingLength ((N + 1 : Nat) : Int),
          { created := s.info.now, message := s.info.msg, userName := s.info.userName, userAddress := s.info.userAddress, state := st })]
        writeable := true } : Inv) = i at *
  have hvers : i.versions = inv.versions ++ [(i.head, ⟨s.info.now, s.info.msg, s.info.userName, s.info.userAddress, st⟩)] := by
    rw [← hi]
  have hhead : i.head = verName inv.paddingLength ((N + 1 : Nat) : Int) := by rw [← hi]
  have hman : i.manifest = inv.manifest := by rw [← hi]
  have hst : ∀ q d, InSt st q d ↔ HasFile inv inv.head q d := by
    intro q d
    by_cases hN : N = 0
    · rw [hs0 hN]
      subst hN
      constructor
      · intro hc; exact absurd hc (inSt_nil q d)
      · rintro ⟨ver, ps, hver, _⟩
        have := hw.1.mem_keys.1 (mem_mkeys_of_mem hver)
        obtain ⟨k, h1, h2, _⟩ := this
        omega
    · obtain ⟨ver, hver⟩ := hw.1.head_version (Nat.pos_of_ne_zero hN)
      rw [hs1 ver hver, hasFile_head hw.1.nodup (headState_eq_ok.2 ⟨ver, hver, rfl⟩)]
  have hold : ∀ v q d, HasFile i v q d ↔ HasFile inv v q d ∨ (v = i.head ∧ HasFile inv inv.head q d) := by
    intro v q d
    unfold HasFile
    rw [hvers]
    constructor
    · rintro ⟨ver, ps, h1, h2, h3⟩
      rcases List.mem_append.1 h1 with h1 | h1
      · exact Or.inl ⟨ver, ps, h1, h2, h3⟩
      · cases List.mem_singleton.1 h1
        exact Or.inr ⟨rfl, (hst q d).1 ⟨ps, h2, h3⟩⟩
    · rintro (⟨ver, ps, h1, h2, h3⟩ | ⟨rfl, h1⟩)
      · exact ⟨ver, ps, List.mem_append_left _ h1, h2, h3⟩
      · obtain ⟨ps, h2, h3⟩ := (hst q d).2 h1
        exact ⟨_, ps, List.mem_append_right _ (List.mem_singleton.2 rfl), h2, h3⟩
  have hcur : ∀ q d, HasFile i i.head q d ↔ HasFile inv inv.head q d := by
    intro q d
    rw [hold]
    constructor
    · rintro (h1 | ⟨_, h1⟩)
      · exfalso
        obtain ⟨ver, ps, hver, _⟩ := h1
        exact hw.1.next_not_mem (by rw [← hhead]; exact mem_mkeys_of_mem hver)
      · exact h1
    · exact fun h1 => Or.inr ⟨rfl, h1⟩
  have hall : ∀ v q d, HasFile i v q d → ∃ u, HasFile inv u q d := by
    intro v q d h1
    rcases (hold v q d).1 h1 with h1 | ⟨_, h1⟩
    · exact ⟨_, h1⟩
    · exact ⟨_, h1⟩
  obtain ⟨hrun, hres⟩ := adds_session ha ⟨hg, hk⟩ hv he
  obtain ⟨k1, k2, k3⟩ := addAll_placed (o := ⟨i, [], s.echo, []⟩) (Nat.succ_pos N) hx hL ⟨hg, hk⟩
    (by rw [(newVersion_frame hv).2.2.1]; exact hh)
    (fun q e e' h1 h2 => hone q e e' ((hcur q e).1 h1) ((hcur q e').1 h2)) hd (by
      intro f hf q hq
      unfold Placed HasPath OwnDigest
      simp only [hcur, hman]
      rcases hpl f hf q hq with ⟨h1, h2⟩ | h1
      · refine Or.inl ⟨h1, fun v hc => ?_⟩
        obtain ⟨u, hu⟩ := hall v q _ hc
        exact h2 u hu
      · exact Or.inr h1) hrun
  have hmod := k3 (by
    obtain ⟨f, hf, q, hq, hc⟩ := hch
    exact ⟨f, hf, q, hq, fun h1 => hc ((hcur q _).1 h1)⟩)
  obtain ⟨r1, r2, r3⟩ := hres hmod
  have hho := (runCalls_step (w := w) (U := fun _ _ => True) (o := ⟨i, [], s.echo, []⟩) (addAll dup files)
    (fun _ _ _ _ => trivial)).headOnly
  refine ⟨k1, r1, fun q d => ?_⟩
  rw [r3, hho.head, k2, hcur]
  constructor
  · rintro ⟨h1 | ⟨h1, h2⟩, h3⟩
    · exact Or.inl h1
    · rcases h3 with h3 | ⟨f, hf, h3⟩
      · exact Or.inr ⟨h1, h3, h2⟩
      · exact absurd h3 (h1 f hf)
  · rintro (⟨f, hf, hq, hfd⟩ | ⟨h1, h2, h3⟩)
    · exact ⟨Or.inl ⟨f, hf, hq, hfd⟩, Or.inr ⟨f, hf, hq⟩⟩
    · exact ⟨Or.inr ⟨h1, h3⟩, Or.inl h2⟩

/-! ## The object -/

/-- version `v` of the object in `fs` has the file `q` with content `b` -/
def VersionContent (fs : FS) (inv : Inv) (v q : Str) (b : Bytes) : Prop :=
  ∃ d m c, HasFile inv v q d ∧ (d, m) ∈ inv.manifest ∧ c ∈ m ∧ mget fs c = some b

/-- `b` is the content of a file of the manifest -/
def StoredContent (fs : FS) (inv : Inv) (b : Bytes) : Prop := ∃ d m c, (d, m) ∈ inv.manifest ∧ c ∈ m ∧ mget fs c = some b

/-- An object as the tool leaves it: digests in lower case and each one of some file, one digest for each path of a
version. -/
structure Clear (inv : Inv) : Prop where
  lower : ∀ d ∈ mkeys inv.manifest, toLower d = d
  oneDigest : ∀ v q d d', HasFile inv v q d → HasFile inv v q d' → d = d'
  used : ∀ d ∈ mkeys inv.manifest, ∃ v q, HasFile inv v q d

/-- The file `q` with content `b` is expected after an update with `files`: it is one of them, or it was there and none of
them has its path. -/
def Replaced (w : World) (files : List InFile) (E : Str → Bytes → Prop) (q : Str) (b : Bytes) : Prop :=
  (∃ f ∈ files, StatePathOf w f q ∧ f.data = b) ∨ ((∀ f ∈ files, ¬ StatePathOf w f q) ∧ E q b)

/-- what is expected after the session `s`: its files in place of those of their paths, and what it keeps of the others -/
def After (w : World) (s : Session) (files : List InFile) (E : Str → Bytes → Prop) : Str → Bytes → Prop :=
  Replaced w files (fun q b => StaysIn w s q ∧ E q b)

theorem after_plain {w : World} {s : Session} (hs : s.echo = false) (files : List InFile) (E : Str → Bytes → Prop) :
    After w s files E = Replaced w files E := by
  unfold After StaysIn
  simp [hs]

/-- what a session expects that mirrors the whole object -/
theorem after_mirror {w : World} {s : Session} (hs : s.echo = true) (hb : w.statePath ".".toList [] = .ok ".".toList) (files : List InFile)
    (E : Str → Bytes → Prop) (q : Str) (b : Bytes) : After w s files E q b ↔ ∃ f ∈ files, StatePathOf w f q ∧ f.data = b := by
  unfold After Replaced
  constructor
  · rintro (h | ⟨_, h, _⟩)
    · exact h
    · exact absurd rfl (h hs _ hb).1
  · exact Or.inl

/-- the paths after the session -/
def PathThen (w : World) (s : Session) (inv : Inv) (files : List InFile) (q : Str) : Prop :=
  (StaysIn w s q ∧ HasPath inv inv.head q) ∨ ∃ f ∈ files, StatePathOf w f q

/-- What is asked of the files of an update (`GoodFiles` with changed files allowed). -/
structure GoodUpdate (w : World) (h : Bytes → Str) (dup : Bool) (fs : FS) (inv : Inv) (N : Nat) (s : Session)
    (files : List InFile) : Prop where
  /-- their names stay in the content directory, each content has its own file -/
  names : SafeNames w s
  targets : (targets w { inv with head := verName inv.paddingLength ((N + 1 : Nat) : Int) } s.body).Nodup
  /-- their logical paths are safe and differ -/
  paths : DistinctPaths w files
  safe : ∀ f ∈ files, ∀ q, StatePathOf w f q → SafePath q
  placed : ∀ f ∈ files, ∀ q, StatePathOf w f q → Placed h dup inv files f q
  /-- one of them is new or changed -/
  change : ∃ f ∈ files, ∃ q, StatePathOf w f q ∧ ¬ HasFile inv inv.head q (h f.data)
  /-- no path is at the same time a folder -/
  noConflict : ∀ x y, PathThen w s inv files x → PathThen w s inv files y → ¬ UnderDir x y
  /-- no two different contents with one digest among those that are there -/
  noCollision : ∀ b b', KnownContent fs inv files b → KnownContent fs inv files b' → h b = h b' → b = b'

section
variable {w : World} {fs : FS} {p N : Nat} {inv : Inv} {s : Session} {dup : Bool} {files : List InFile} {h : Bytes → Str}

/-- extraction of a version of an intact object leaves exactly its files; all that is asked of its digests is that they are in
lower case, one for each path -/
theorem version_extract_of (I : Intact w fs p N inv) (hh : w.hash inv.digestAlg = some h)
    (hcol : ∀ b b', StoredContent fs inv b → StoredContent fs inv b' → h b = h b' → b = b') {v : Str} {ver : Version}
    (hlow : ∀ d ∈ mkeys ver.state, toLower d = d)
    (hone : ∀ q d d', HasFile inv (selectVersion inv v) q d → HasFile inv (selectVersion inv v) q d' → d = d')
    (hver : mget inv.versions (selectVersion inv v) = some ver) {xp : ExtractPath}
    (hxp : NamesApart xp (HasPath inv (selectVersion inv v))) (wm : Bool) :
    (extract w inv fs xp v wm).err = none ∧
    ∀ x b, (wm = true → x ≠ manifestName inv.digestAlg) →
      (mget (applyOps [] (extract w inv fs xp v wm).trace) x = some b ↔
        ∃ q, xp q = .ok (some x) ∧ VersionContent fs inv (selectVersion inv v) q b) := by
  generalize hsel : selectVersion inv v = u at *
  have hnd := I.ok.wf.1.nodup
  have hcont : ∀ {d m c}, d ∈ mkeys ver.state → (d, m) ∈ inv.manifest → c ∈ m → ∃ b, mget fs c = some b ∧ h b = d := by
    intro d m c hk hd hc
    obtain ⟨b, hash, g1, g2, g3⟩ := I.files.content d m c hd hc
    rw [hh] at g2; cases g2
    exact ⟨b, g1, g3.trans (hlow d hk)⟩
  have hkey : ∀ {q d}, HasFile inv u q d → d ∈ mkeys ver.state := by
    rintro q d ⟨ver', ps, k1, k2, _⟩
    have := mget_of_mem hnd k1
    rw [hver] at this
    cases this
    exact mem_mkeys_of_mem k2
  have hok : (extract w inv fs xp v wm).err = none := by
    refine extract_succeeds (h := h) (ver := ver) hh (by rw [hsel]; exact hver) ?_ ?_
    · intro d ps hd
      obtain ⟨m, hm⟩ := I.ok.covered.1 _ ver d (mem_of_mget hver) (mem_mkeys_of_mem hd)
      obtain ⟨c, cs, rfl⟩ := List.exists_cons_of_ne_nil (I.ok.covered.2 d m hm)
      obtain ⟨b, g1, g2⟩ := hcont (mem_mkeys_of_mem hd) hm (List.mem_cons_self ..)
      exact ⟨c, cs, b, mget_of_mem I.ok.keys.1 hm, g1, g2⟩
    · intro d ps q hd hq
      exact hxp.total q ⟨d, ver, ps, mem_of_mget hver, hd, hq⟩
  refine ⟨hok, fun x b hx0 => ?_⟩
  obtain ⟨ver', ds, d1, _, d2, _, d4, d5⟩ := extract_ok hok
  rw [hsel, hver] at d1; cases d1
  have hdel : ∀ y ∈ ds, VersionContent fs inv u y.path y.data ∧ xp y.path = .ok (some y.name) := by
    intro y hy
    obtain ⟨⟨ps, y1, y2⟩, y3, ⟨c, cs, y4, y5⟩, _⟩ := d4 y hy
    exact ⟨⟨y.digest, _, c, ⟨ver, ps, mem_of_mget hver, y1, y2⟩, mem_of_mget y4, List.mem_cons_self .., y5⟩, y3⟩
  have huniq : ∀ q b b', VersionContent fs inv u q b → VersionContent fs inv u q b' → b = b' := by
    rintro q b b' ⟨d, m, c, k1, k2, k3, k4⟩ ⟨d', m', c', l1, l2, l3, l4⟩
    have := hone q d d' k1 l1
    subst this
    refine hcol b b' ⟨d, m, c, k2, k3, k4⟩ ⟨d, m', c', l2, l3, l4⟩ ?_
    obtain ⟨b1, g1, g2⟩ := hcont (hkey k1) k2 k3
    obtain ⟨b2, g3, g4⟩ := hcont (hkey l1) l2 l3
    rw [k4] at g1; cases g1
    rw [l4] at g3; cases g3
    rw [g2, g4]
  have hpath : ∀ q b, VersionContent fs inv u q b → HasPath inv u q := fun q b ⟨d, _, _, k, _⟩ => ⟨d, k⟩
  have hlast : mget (applyOps [] (extract w inv fs xp v wm).trace) x = mget (applyOps [] (deliver ds)) x := by
    rw [d2, applyOps_append]
    unfold manifestWrite
    cases wm with
    | false => rfl
    | true => exact mget_writeFile_ne _ _ (fun hc => hx0 rfl hc.symm)
  rw [hlast]
  constructor
  · intro hb
    have hmem : x ∈ ds.map Delivery.name := by
      by_contra hn
      rw [deliver_other hn] at hb
      cases hb
    obtain ⟨y, hy, y1, y2⟩ := deliver_last (fs := []) hmem
    rw [hb] at y2; cases y2
    obtain ⟨g1, g2⟩ := hdel y hy
    exact ⟨y.path, by rw [← y1]; exact g2, g1⟩
  · rintro ⟨q, hq, hE⟩
    obtain ⟨d, _, _, ⟨verQ, ps, q1, q2, q3⟩, _⟩ := id hE
    have : verQ = ver := by
      have := mget_of_mem hnd q1
      rw [hver] at this
      cases this; rfl
    subst this
    obtain ⟨taken, t1, t2⟩ := d5 d ps q2
    have htaken : ps = taken := by
      rcases t2 with ⟨rest, z, t2, t3⟩ | t2
      · obtain ⟨x', hx'⟩ := hxp.total z ⟨d, verQ, ps, q1, q2, by rw [t2]; simp⟩
        rw [hx'] at t3; cases t3
      · exact t2
    obtain ⟨y, hy, y1, _⟩ := t1 q (htaken ▸ q3)
    obtain ⟨g1, g2⟩ := hdel y hy
    have hyx : y.name = x := by
      rw [y1, hq] at g2; cases g2; rfl
    obtain ⟨z, hz, z1, z2⟩ := deliver_last (fs := []) (List.mem_map.2 ⟨y, hy, hyx⟩)
    obtain ⟨k1, k2⟩ := hdel z hz
    rw [z1] at k2
    have := hxp.injective _ _ x (hpath _ _ k1) (hpath _ _ hE) k2 hq
    rw [this] at k1
    rw [z2, huniq q _ _ k1 hE]

/-- extraction of a version of an intact object leaves exactly its files -/
theorem version_extract (I : Intact w fs p N inv) (C : Clear inv) (hh : w.hash inv.digestAlg = some h)
    (hcol : ∀ b b', StoredContent fs inv b → StoredContent fs inv b' → h b = h b' → b = b') {v : Str} {ver : Version}
    (hver : mget inv.versions (selectVersion inv v) = some ver) {xp : ExtractPath}
    (hxp : NamesApart xp (HasPath inv (selectVersion inv v))) (wm : Bool) :
    (extract w inv fs xp v wm).err = none ∧
    ∀ x b, (wm = true → x ≠ manifestName inv.digestAlg) →
      (mget (applyOps [] (extract w inv fs xp v wm).trace) x = some b ↔
        ∃ q, xp q = .ok (some x) ∧ VersionContent fs inv (selectVersion inv v) q b) := by
  refine version_extract_of I hh hcol (fun d hd => ?_) (C.oneDigest _) hver hxp wm
  obtain ⟨m, hm⟩ := I.ok.covered.1 _ ver d (mem_of_mget hver) hd
  exact C.lower d (mem_mkeys_of_mem hm)

/-- the session of such files is clean -/
theorem goodUpdate_clean (hx : HexHash w) (hL : LowerHash w) (I : InvOk p N inv) (C : Clear inv) (ha : AddsFiles s dup files)
    (hh : w.hash inv.digestAlg = some h) (hg : GoodUpdate w h dup fs inv N s files) (he : (session w inv s).err = none)
    (hwid : 0 < p → (fmtNat (N + 1)).length ≤ p) : CleanSession w p N inv s := by
  obtain ⟨k1, k2, k3⟩ := replaced_state hx hL I.wf ha hh he hg.paths (C.oneDigest inv.head) hg.placed hg.change
  have key : ∀ ver d ps q, ((session w inv s).obj.inv.head, ver) ∈ (session w inv s).obj.inv.versions → (d, ps) ∈ ver.state →
      q ∈ ps → (StaysIn w s q ∧ HasFile inv inv.head q d) ∨ ∃ f ∈ files, StatePathOf w f q ∧ d = h f.data := by
    intro ver d ps q h1 h2 h3
    rcases (k3 q d).1 ⟨ver, ps, h1, h2, h3⟩ with h4 | ⟨_, h4⟩
    · exact Or.inr h4
    · exact Or.inl h4
  refine ⟨hg.names, ha.rounds, ?_, he, k2, ⟨?_, ?_⟩, hwid⟩
  · have hu : callsUses (s.before ++ s.body ++ s.after) = callsUses s.body := by
      have h1 : callsUses s.before = [] := ha.before.uses
      have h2 : callsUses s.after = [] := ha.after.uses
      unfold callsUses at h1 h2 ⊢
      rw [List.flatMap_append, List.flatMap_append, h1, h2, List.nil_append, List.append_nil]
    have := hg.targets
    unfold targets at this ⊢
    rw [hu]
    exact this
  · intro ver d ps q h1 h2 h3
    rcases key ver d ps q h1 h2 h3 with ⟨_, ver', ps', g1, g2, g3⟩ | ⟨f, hf, hq, _⟩
    · exact I.paths.1 _ ver' d ps' q g1 g2 g3
    · exact hg.safe f hf q hq
  · intro ver x y h1 hxm hym
    obtain ⟨⟨d, ps⟩, hd, hx'⟩ := List.mem_flatMap.1 hxm
    obtain ⟨⟨d', ps'⟩, hd', hy'⟩ := List.mem_flatMap.1 hym
    refine hg.noConflict x y ?_ ?_
    · rcases key ver d ps x h1 hd hx' with ⟨g0, g⟩ | ⟨f, hf, hq, _⟩
      · exact Or.inl ⟨g0, d, g⟩
      · exact Or.inr ⟨f, hf, hq⟩
    · rcases key ver d' ps' y h1 hd' hy' with ⟨g0, g⟩ | ⟨f, hf, hq, _⟩
      · exact Or.inl ⟨g0, d', g⟩
      · exact Or.inr ⟨f, hf, hq⟩

theorem addsFiles_contents (ha : AddsFiles s dup files) {b : Bytes} (hb : ∃ c ∈ s.calls, b ∈ c.contents) : ∃ f ∈ files, f.data = b := by
  obtain ⟨c, hc, hb⟩ := hb
  unfold Session.calls at hc
  rw [ha.rounds, List.flatMap_nil, List.append_nil] at hc
  rcases List.mem_append.1 hc with hc | hc
  · rcases List.mem_append.1 hc with hc | hc
    · obtain ⟨f, hf, _⟩ := ha.before.contents hc hb
      cases hf
    · exact ha.body.contents hc hb
  · obtain ⟨f, hf, _⟩ := ha.after.contents hc hb
    cases hf

theorem invOk_sound (I : InvOk p N inv) : Sound inv N :=
  ⟨I.wf, I.keys.1, I.cdir, fun c ⟨d, m, h1, h2⟩ => invOk_versionFile I d m c h1 h2⟩

/-- what the object is after an update -/
structure Updated (w : World) (h : Bytes → Str) (fs : FS) (p N : Nat) (inv : Inv) (s : Session) (files : List InFile) (fs' : FS) (r : RawInv) : Prop where
  valid : ValidObject w fs' p (N + 1) r
  intact : Intact w fs' p (N + 1) (loadedInv p r)
  clear : Clear (loadedInv p r)
  alg : r.inv.digestAlg = inv.digestAlg
  id : r.inv.id = inv.id
  cdir : r.inv.contentDirectory = inv.contentDirectory
  /-- the new version has the files of the update in place of what was there -/
  head : ∀ q b, VersionContent fs' (loadedInv p r) r.inv.head q b ↔ After w s files (VersionContent fs inv inv.head) q b
  /-- the versions before have what they had -/
  old : ∀ v ∈ mkeys inv.versions, ∀ q b, VersionContent fs' (loadedInv p r) v q b ↔ VersionContent fs inv v q b
  /-- no content is new but that of the files -/
  known : ∀ b, StoredContent fs' (loadedInv p r) b → KnownContent fs inv files b

/-- an update with changed and new files, of an object that is on its way -/
theorem updated_of_staged (hc : Codec w) (hx : HexHash w) (hL : LowerHash w) (ht : ∀ t, w.time (w.time t) = w.time t)
    (I : Staged w fs p N inv) (C : Clear inv) (ha : AddsFiles s dup files) (hh : w.hash inv.digestAlg = some h)
    (hg : GoodUpdate w h dup fs inv N s files) (he : (session w inv s).err = none)
    (hwid : 0 < p → (fmtNat (N + 1)).length ≤ p) :
    ∃ r, Updated w h fs p N inv s files (applyOps fs (session w inv s).obj.trace) r ∧ ReadBack w (session w inv s).obj.inv r := by
  obtain ⟨_, hmod, hst⟩ := replaced_state hx hL I.ok.wf ha hh he hg.paths (C.oneDigest inv.head) hg.placed hg.change
  have hcl := goodUpdate_clean hx hL I.ok C ha hh hg he hwid
  obtain ⟨r, hdec, R, hV, hI⟩ := staged_session hc hx hL ht I hcl
  obtain ⟨i, o, f0, D⟩ := deposited hL I.ok hcl.names hcl.rounds hcl.completes hcl.modified
  obtain ⟨s1, s2, s3, s4, s5, s6, s7, s8⟩ := D.scalars I.ok
  obtain ⟨e1, e2, e3, e4, e5⟩ := R.scalars
  have hprov : ∀ {d m c}, (d, m) ∈ r.inv.manifest → c ∈ m →
      (∃ m0, (d, m0) ∈ inv.manifest ∧ c ∈ m0 ∧ mget (applyOps fs (session w inv s).obj.trace) c = mget fs c) ∨
      ∃ b, (∃ f ∈ files, f.data = b) ∧ mget (applyOps fs (session w inv s).obj.trace) c = some b ∧ toLower (h b) = d := by
    intro d m c hd hcm
    rcases session_provenance (fs := fs) I.ok.wf I.ok.cdir hh (invOk_alg I.ok) (invOk_versionFile I.ok) hcl.names hcl.rounds
      hcl.distinct (R.manifest.mem_iff.2 hd) hcm with g | ⟨b, hb, g⟩
    · exact Or.inl g
    · exact Or.inr ⟨b, addsFiles_contents ha hb, g⟩
  have halg : r.inv.digestAlg = inv.digestAlg := by rw [← e3, D.result]; exact s2
  have hid : r.inv.id = inv.id := by rw [← e1, D.result]; exact s4
  have hcd : r.inv.contentDirectory = inv.contentDirectory := by rw [← e5, D.result]; exact s3
  have hS := invOk_sound I.ok
  obtain ⟨_, _, _, _, _, kver, kman⟩ := session_kept hS hcl.names he
  have kfile : ∀ c, Listed inv c → mget (applyOps fs (session w inv s).obj.trace) c = mget fs c := fun c hp =>
    mget_applyOps_ne (fun op hop hc => session_not_old hS.wf hS.cdir hcl.names hop (by rw [hc]; exact hS.files c hp))
  have hndS : (mkeys (session w inv s).obj.inv.versions).Nodup := R.keys.nodup_iff.2 hI.ok.wf.1.nodup
  generalize hfs : applyOps fs (session w inv s).obj.trace = fs' at *
  have hold : ∀ v ∈ mkeys inv.versions, ∀ q d, HasFile r.inv v q d ↔ HasFile inv v q d := by
    intro v hv q d
    rw [hasFile_readBack R, hasFile_iff hndS, hasFile_iff I.ok.wf.1.nodup, kver v hv]
  have hhead : r.inv.head = (session w inv s).obj.inv.head := e4.symm
  have hst' : ∀ q d, HasFile r.inv r.inv.head q d ↔
      (∃ f ∈ files, StatePathOf w f q ∧ d = h f.data) ∨ ((∀ f ∈ files, ¬ StatePathOf w f q) ∧ StaysIn w s q ∧ HasFile inv inv.head q d) := by
    intro q d
    rw [hasFile_readBack R, hhead]; exact hst q d
  have hh' : w.hash r.inv.digestAlg = some h := by rw [halg]; exact hh
  have hlow : ∀ d m, (d, m) ∈ r.inv.manifest → toLower d = d := by
    intro d m hd
    obtain ⟨c, hcm⟩ := List.exists_mem_of_ne_nil _ (hV.inv.nonempty.1 d m hd)
    rcases hprov hd hcm with ⟨m0, g, _⟩ | ⟨b, _, _, g⟩
    · exact C.lower d (mem_mkeys_of_mem g)
    · rw [← g, toLower_idem]
  have hcont : ∀ {d m c}, (d, m) ∈ r.inv.manifest → c ∈ m → ∃ b, mget fs' c = some b ∧ h b = d ∧ KnownContent fs inv files b := by
    intro d m c hd hcm
    obtain ⟨b, hash, g1, g2, g3⟩ := hV.files.content d m c hd hcm
    rw [hh'] at g2; cases g2
    refine ⟨b, g1, g3.trans (hlow d m hd), ?_⟩
    rcases hprov hd hcm with ⟨m0, k1, k2, k3⟩ | ⟨b', k1, k2, _⟩
    · exact Or.inl ⟨d, m0, c, k1, k2, by rw [← k3]; exact g1⟩
    · rw [g1] at k2; cases k2
      exact Or.inr k1
  have hconO : ∀ {d m c b}, (d, m) ∈ inv.manifest → c ∈ m → mget fs c = some b → h b = d := by
    intro d m c b hd hc hb
    obtain ⟨b0, hash, g1, g2, g3⟩ := I.files.content d m c hd hc
    rw [hb] at g1; cases g1
    rw [hh] at g2; cases g2
    exact g3.trans (C.lower d (mem_mkeys_of_mem hd))
  -- a digest of a version has content, before and after the same
  have hthere : ∀ v q d, HasFile r.inv v q d → ∃ m c b, (d, m) ∈ r.inv.manifest ∧ c ∈ m ∧ mget fs' c = some b ∧ h b = d ∧ KnownContent fs inv files b := by
    rintro v q d ⟨ver, ps, o1, o2, o3⟩
    obtain ⟨m, hm⟩ := hV.inv.covered v ver d ps o1 o2
    obtain ⟨c, hcm⟩ := List.exists_mem_of_ne_nil _ (hV.inv.nonempty.1 d m hm)
    obtain ⟨b, g1, g2, g3⟩ := hcont hm hcm
    exact ⟨m, c, b, hm, hcm, g1, g2, g3⟩
  have hthereO : ∀ v q d, HasFile inv v q d → ∃ m c b, (d, m) ∈ inv.manifest ∧ c ∈ m ∧ mget fs c = some b ∧ h b = d := by
    rintro v q d ⟨ver, ps, o1, o2, o3⟩
    obtain ⟨m, hm⟩ := I.ok.covered.1 v ver d o1 (mem_mkeys_of_mem o2)
    obtain ⟨c, hcm⟩ := List.exists_mem_of_ne_nil _ (I.ok.covered.2 d m hm)
    obtain ⟨b, hash, g1, g2, g3⟩ := I.files.content d m c hm hcm
    exact ⟨m, c, b, hm, hcm, g1, hconO hm hcm g1⟩
  have hmove : ∀ {d b}, (∃ m c, (d, m) ∈ inv.manifest ∧ c ∈ m ∧ mget fs c = some b) →
      ∃ m c, (d, m) ∈ r.inv.manifest ∧ c ∈ m ∧ mget fs' c = some b := by
    rintro d b ⟨m, c, h1, h2, h3⟩
    obtain ⟨ext, h4⟩ := kman d m (mget_of_mem I.ok.keys.1 h1)
    exact ⟨m ++ ext, c, R.manifest.mem_iff.1 (mem_of_mget h4), List.mem_append_left _ h2, by rw [kfile c ⟨d, m, h1, h2⟩]; exact h3⟩
  have hsame : ∀ v q d, HasFile inv v q d → ∀ b, (∃ m c, (d, m) ∈ r.inv.manifest ∧ c ∈ m ∧ mget fs' c = some b) ↔
      ∃ m c, (d, m) ∈ inv.manifest ∧ c ∈ m ∧ mget fs c = some b := by
    intro v q d hvq b
    refine ⟨?_, hmove⟩
    rintro ⟨m, c, h1, h2, h3⟩
    obtain ⟨b1, g1, g2, g3⟩ := hcont h1 h2
    rw [h3] at g1; cases g1
    obtain ⟨m0, c0, b0, k1, k2, k3, k4⟩ := hthereO v q d hvq
    have := hg.noCollision _ _ g3 (Or.inl ⟨d, m0, c0, k1, k2, k3⟩) (g2.trans k4.symm)
    subst this
    exact ⟨m0, c0, k1, k2, k3⟩
  have hkeys : ∀ v q d, HasFile inv v q d → HasFile r.inv v q d := by
    intro v q d hvq
    obtain ⟨ver, ps, o1, _⟩ := id hvq
    exact (hold v (mem_mkeys_of_mem o1) q d).2 hvq
  refine ⟨r, ⟨hV, hI, ⟨?_, ?_, ?_⟩, halg, hid, hcd, ?_, ?_, ?_⟩, R⟩
  · intro d hd
    obtain ⟨m, hm⟩ := mem_mkeys_iff.1 hd
    exact hlow d m hm
  · intro v q d d' h1 h2
    by_cases hv : v ∈ mkeys inv.versions
    · exact C.oneDigest v q d d' ((hold v hv q d).1 h1) ((hold v hv q d').1 h2)
    · have hvh : v = r.inv.head := by
        obtain ⟨ver, ps, o1, _⟩ := id h1
        obtain ⟨k, k1, k2, rfl⟩ := hI.ok.wf.1.mem_keys.1 (mem_mkeys_of_mem o1)
        have hpad : (loadedInv p r).paddingLength = (p : Int) := rfl
        have hkN : k = N + 1 := by
          by_contra hne
          exact hv (I.ok.wf.1.mem_keys.2 ⟨k, k1, by omega, by rw [hpad, I.ok.pad]⟩)
        rw [hkN, hpad, hV.inv.head]
      subst hvh
      rcases (hst' q d).1 h1 with ⟨f, hf, g, rfl⟩ | ⟨g0, _, g⟩ <;> rcases (hst' q d').1 h2 with ⟨f', hf', g', rfl⟩ | ⟨g0', _, g'⟩
      · rw [hg.paths.same hf hf' g g']
      · exact absurd g (g0' f hf)
      · exact absurd g' (g0 f' hf')
      · exact C.oneDigest _ q d d' g g'
  · intro d hd
    obtain ⟨m, hm⟩ := mem_mkeys_iff.1 hd
    have hm : (d, m) ∈ r.inv.manifest := hm
    obtain ⟨c, hcm⟩ := List.exists_mem_of_ne_nil _ (hV.inv.nonempty.1 d m hm)
    rcases hprov hm hcm with ⟨m0, g, _⟩ | ⟨b, ⟨f, hf, rfl⟩, _, g⟩
    · obtain ⟨v, q, hvq⟩ := C.used d (mem_mkeys_of_mem g)
      exact ⟨v, q, hkeys v q d hvq⟩
    · obtain ⟨q, hq⟩ := (replaced_state hx hL I.ok.wf ha hh he hg.paths (C.oneDigest inv.head) hg.placed hg.change).1 f hf
      exact ⟨r.inv.head, q, (hst' q d).2 (Or.inl ⟨f, hf, hq, by rw [← g]; exact hL _ _ f.data hh⟩)⟩
  · intro q b
    constructor
    · rintro ⟨d, m, c, k1, k2, k3, k4⟩
      obtain ⟨b1, g1, g2, g3⟩ := hcont k2 k3
      rw [k4] at g1; cases g1
      rcases (hst' q d).1 k1 with ⟨f, hf, g, rfl⟩ | ⟨g0, gk, g⟩
      · exact Or.inl ⟨f, hf, g, hg.noCollision _ _ (Or.inr ⟨f, hf, rfl⟩) g3 g2.symm⟩
      · obtain ⟨m0, c0, j1, j2, j3⟩ := (hsame _ _ _ g b).1 ⟨m, c, k2, k3, k4⟩
        exact Or.inr ⟨g0, gk, d, m0, c0, g, j1, j2, j3⟩
    · rintro (⟨f, hf, g, rfl⟩ | ⟨g0, gk, d, m, c, g, k2, k3, k4⟩)
      · have hf' := (hst' q (h f.data)).2 (Or.inl ⟨f, hf, g, rfl⟩)
        obtain ⟨m, c, b, j1, j2, j3, j4, j5⟩ := hthere _ _ _ hf'
        have := hg.noCollision _ _ j5 (Or.inr ⟨f, hf, rfl⟩) j4
        subst this
        exact ⟨_, m, c, hf', j1, j2, j3⟩
      · obtain ⟨m0, c0, j1, j2, j3⟩ := (hsame _ _ _ g b).2 ⟨m, c, k2, k3, k4⟩
        exact ⟨d, m0, c0, (hst' q d).2 (Or.inr ⟨g0, gk, g⟩), j1, j2, j3⟩
  · intro v hv q b
    constructor
    · rintro ⟨d, m, c, k1, k2, k3, k4⟩
      have g := (hold v hv q d).1 k1
      obtain ⟨m0, c0, j1, j2, j3⟩ := (hsame _ _ _ g b).1 ⟨m, c, k2, k3, k4⟩
      exact ⟨d, m0, c0, g, j1, j2, j3⟩
    · rintro ⟨d, m, c, k1, k2, k3, k4⟩
      obtain ⟨m0, c0, j1, j2, j3⟩ := (hsame _ _ _ k1 b).2 ⟨m, c, k2, k3, k4⟩
      exact ⟨d, m0, c0, (hold v hv q d).2 k1, j1, j2, j3⟩
  · rintro b ⟨d, m, c, k1, k2, k3⟩
    obtain ⟨b1, g1, _, g3⟩ := hcont k1 k2
    rw [k3] at g1; cases g1
    exact g3

/-- **C161**, at the object: an update with changed and new files. -/
theorem C161_object_partial (hc : Codec w) (hx : HexHash w) (hL : LowerHash w) (ht : ∀ t, w.time (w.time t) = w.time t)
    (I : Intact w fs p N inv) (C : Clear inv) (ha : AddsFiles s dup files) (hh : w.hash inv.digestAlg = some h)
    (hg : GoodUpdate w h dup fs inv N s files) (he : (session w inv s).err = none)
    (hwid : 0 < p → (fmtNat (N + 1)).length ≤ p) :
    ∃ r, Updated w h fs p N inv s files (applyOps fs (session w inv s).obj.trace) r := by
  obtain ⟨r, U, _⟩ := updated_of_staged hc hx hL ht I.staged C ha hh hg he hwid
  exact ⟨r, U⟩

/-- **C161.** `update` with changed and new files: the latest version comes out with the files of the update in place of
what was there under their paths, and all else as before — with `--echo`, all else that is not in the mirrored place; the
older versions stay. -/
theorem C161_update_partial {env : Env} {plain : Bool} {blank : Inv} {ls : List (Str → Res Str)} {a : CreateArgs} {id : Str}
    {f0 : List Fnd} {fs : FS} (hc : Codec w) (hx : HexHash w) (hL : LowerHash w)
    (ht : ∀ t, w.time (w.time t) = w.time t) (hl : loadByID w env plain blank ls fs id = .ok (inv, f0)) (hid : inv.id = id)
    (I : Intact w (subFS fs (rootPath ls id).1) p N inv) (C : Clear inv) (hh : w.hash inv.digestAlg = some h)
    (ha : AddsFiles s dup files) (he : (updateCmd w env plain blank ls a fs id s).2 = none)
    (hg : GoodUpdate w h dup (subFS fs (rootPath ls id).1) inv N s files) (hwid : 0 < p → (fmtNat (N + 1)).length ≤ p)
    {xp : ExtractPath} (hxp : NamesApart xp (PathThen w s inv files)) (wm : Bool) :
    ComesOut w env plain blank ls (applyOps fs (updateCmd w env plain blank ls a fs id s).1) id xp wm
      (After w s files (VersionContent (subFS fs (rootPath ls id).1) inv inv.head)) ∧
    ∃ r f, Updated w h (subFS fs (rootPath ls id).1) p N inv s files
        (subFS (applyOps fs (updateCmd w env plain blank ls a fs id s).1) (rootPath ls id).1) r ∧
      loadByID w env plain blank ls (applyOps fs (updateCmd w env plain blank ls a fs id s).1) id = .ok (loadedInv p r, f) := by
  have hroot : (rootPath ls id).2 = false := by
    unfold loadByID at hl
    split at hl
    · cases hl
    · rename_i hr; exact Bool.eq_false_iff.2 hr
  have hex : objectExists ls fs id = .ok true := by
    cases hx : objectExists ls fs id with
    | error e => unfold objectExists at hx; rw [hroot] at hx; cases hx
    | ok b =>
      have : b = true := by
        rw [C94_exists_exact _ _ _ _ hx]
        obtain ⟨num, _, hd, _⟩ := I.decl
        exact ⟨_, _, by rw [← mget_subFS]; exact hd⟩
      rw [this]
  have hupd : updateCmd w env plain blank ls a fs id s = inFolder (rootPath ls id).1 (session w inv s) := by
    unfold updateCmd addObjectByPath
    simp only [hex, hl]
  rw [hupd] at he ⊢
  have hsub : subFS (applyOps fs (inFolder (rootPath ls id).1 (session w inv s)).1) (rootPath ls id).1 =
      applyOps (subFS fs (rootPath ls id).1) (session w inv s).obj.trace := subFS_applyOps_lift _ _ _
  obtain ⟨r, U⟩ := C161_object_partial hc hx hL ht I C ha hh hg he hwid
  rw [← hsub] at U
  obtain ⟨f, hload⟩ := loadByID_valid env plain blank hroot U.valid
  have hsel : selectVersion (loadedInv p r) "latest".toList = r.inv.head := by
    unfold selectVersion
    rw [if_pos (Or.inl rfl)]
    rfl
  have hnd := U.intact.ok.wf.1.nodup
  obtain ⟨ver, hver⟩ := mem_mkeys_iff.1 (U.intact.ok.wf.1.mem_keys.2 ⟨N + 1, Nat.succ_pos N, Nat.le_refl _, rfl⟩)
  have hver : mget (loadedInv p r).versions r.inv.head = some ver := by
    rw [U.valid.inv.head]
    exact mget_of_mem hnd hver
  have hpa : ∀ q, HasPath (loadedInv p r) r.inv.head q → PathThen w s inv files q := by
    rintro q ⟨d, ver', ps, o1, o2, o3⟩
    obtain ⟨m, hm⟩ := U.intact.ok.covered.1 _ ver' d o1 (mem_mkeys_of_mem o2)
    obtain ⟨c, hcm⟩ := List.exists_mem_of_ne_nil _ (U.intact.ok.covered.2 d m hm)
    obtain ⟨b, hash, g1, _, _⟩ := U.intact.files.content d m c hm hcm
    rcases (U.head q b).1 ⟨d, m, c, ⟨ver', ps, o1, o2, o3⟩, hm, hcm, g1⟩ with ⟨f, hf, hq, _⟩ | ⟨_, hk, d', _, _, hd', _⟩
    · exact Or.inr ⟨f, hf, hq⟩
    · exact Or.inl ⟨hk, d', hd'⟩
  obtain ⟨x1, x2⟩ := version_extract U.intact U.clear (h := h) (by show w.hash r.inv.digestAlg = some h; rw [U.alg]; exact hh)
    (fun b b' h1 h2 => hg.noCollision b b' (U.known b h1) (U.known b' h2)) (v := "latest".toList) (ver := ver) (by rw [hsel]; exact hver)
    (xp := xp) (by
      rw [hsel]
      exact ⟨fun q hq => hxp.total q (hpa q hq), fun q q' x h1 h2 => hxp.injective q q' x (hpa q h1) (hpa q' h2)⟩) wm
  refine ⟨⟨_, f, hload, U.id.trans hid, x1, fun x b hx0 => ?_⟩, r, f, U, hload⟩
  rw [x2 x b hx0, hsel]
  simp only [U.head]

end

end Gocfl
