import Verif.Model.ExtLoad
import Verif.Model.Root
import Verif.Model.RootLayouts
import Verif.Props.Manager
import Verif.Props.LayoutConfig

/-! # C96, C97: extensions across a restart, unsupported extensions -/

namespace Gocfl

variable {β : Type}

/-! ## Scanning the folders -/

theorem createExt_name {make : Str → Option β → Option β} {c : ExtCfg β} {e : Ext β} (h : createExt make c = some e) :
    e.name = c.name := by
  unfold createExt at h
  split at h
  · rename_i h1; cases h; exact h1.symm
  · split at h
    · rename_i h1; cases h; exact h1.symm
    · cases hm : make c.name c.rest with
      | none => rw [hm] at h; cases h
      | some s => rw [hm] at h; cases h; rfl

/-- every readable configuration lies in the folder with the name of its extension -/
def OwnFolders (src : List (Str × Option (ExtCfg β))) : Prop := ∀ f c, (f, some c) ∈ src → c.name = f

/-- the configuration an extension writes is one its creator takes to the same state -/
def Keeps (make : Str → Option β → Option β) : Prop := ∀ n r s, make n r = some s → make n (some s) = some s

/-- What is known of an extension that came from a configuration. -/
def Made (make : Str → Option β → Option β) (e : Ext β) : Prop :=
  match e with
  | .initial n _ => n = nmInitial
  | .manager _ _ => True
  | .other n s => n ≠ nmInitial ∧ n ≠ nmManager ∧ ∃ r, make n r = some s

theorem createExt_made {make : Str → Option β → Option β} {c : ExtCfg β} {e : Ext β} (h : createExt make c = some e) :
    Made make e := by
  unfold createExt at h
  split at h
  · rename_i h1; cases h; exact h1
  · rename_i h0
    split at h
    · cases h; trivial
    · rename_i h1
      cases hm : make c.name c.rest with
      | none => rw [hm] at h; cases h
      | some s => rw [hm] at h; cases h; exact ⟨h0, h1, _, hm⟩

theorem scanFolder_own {make : Str → Option β → Option β} {f : Str} {c : Option (ExtCfg β)} {l : List (Ext β)}
    (ho : ∀ c', c = some c' → c'.name = f) (h : scanFolder make (f, c) = some l) : ∃ e, l = [e] ∧ e.name = f ∧ Made make e := by
  cases c with
  | none => cases h
  | some c' =>
    unfold scanFolder at h
    simp only [Option.bind_some] at h
    cases hc : createExt make c' with
    | none => rw [hc] at h; cases h
    | some e =>
      rw [hc, Option.map_some] at h
      have hn := (createExt_name hc).trans (ho c' rfl)
      rw [if_neg (by rintro ⟨h1, h2⟩; exact h2 (hn.trans h1))] at h
      cases h
      exact ⟨e, rfl, hn, createExt_made hc⟩

theorem scan_own {make : Str → Option β → Option β} {report : Bool} {src : List (Str × Option (ExtCfg β))} {l : List (Ext β)}
    (ho : OwnFolders src) (h : scanFolders make report src = .ok l) :
    (l.map Ext.name).Sublist (src.map (·.1)) ∧ ∀ e ∈ l, Made make e ∧ ∃ c, (e.name, some c) ∈ src := by
  induction src generalizing l with
  | nil => cases h; exact ⟨List.Sublist.refl _, fun e he => by cases he⟩
  | cons a src ih =>
    have ho' : OwnFolders src := fun f c hc => ho f c (List.mem_cons_of_mem _ hc)
    unfold scanFolders at h
    cases ha : scanFolder make a with
    | none =>
      rw [ha] at h
      simp only at h
      split at h
      · obtain ⟨h1, h2⟩ := ih ho' h
        exact ⟨h1.trans (by simp), fun e he => ⟨(h2 e he).1, (h2 e he).2.imp fun c hc => List.mem_cons_of_mem _ hc⟩⟩
      · cases h
    | some l0 =>
      rw [ha] at h
      simp only at h
      obtain ⟨r, hr, h⟩ := res_bind_eq_ok.1 h
      cases h
      obtain ⟨f, c⟩ := a
      obtain ⟨e, rfl, hn, hm⟩ := scanFolder_own (fun c' hc => ho f c' (by rw [← hc]; exact List.mem_cons_self)) ha
      obtain ⟨h1, h2⟩ := ih ho' hr
      refine ⟨?_, ?_⟩
      · simp only [List.singleton_append, List.map_cons, hn]
        exact h1.cons_cons _
      · intro e' he'
        rcases List.mem_cons.1 he' with rfl | he'
        · refine ⟨hm, ?_⟩
          rw [hn]
          cases c with
          | none => cases ha
          | some c => exact ⟨c, List.mem_cons_self⟩
        · exact ⟨(h2 e' he').1, (h2 e' he').2.imp fun c hc => List.mem_cons_of_mem _ hc⟩

/-! ## The initial extension and the manager -/

theorem lastInitial_mem {l : List (Ext β)} {n x : Str} (h : lastInitial l = some (n, x)) : Ext.initial n x ∈ l := by
  induction l with
  | nil => cases h
  | cons e l ih =>
    cases e with
    | initial n' x' =>
      unfold lastInitial at h
      cases hl : lastInitial l with
      | none => rw [hl] at h; cases h; exact List.mem_cons_self
      | some y => rw [hl] at h; cases h; exact List.mem_cons_of_mem _ (ih hl)
    | manager _ _ => exact List.mem_cons_of_mem _ (ih h)
    | other _ _ => exact List.mem_cons_of_mem _ (ih h)

theorem lastInitial_none {l : List (Ext β)} (h : lastInitial l = none) : ∀ n x, Ext.initial n x ∉ l := by
  induction l with
  | nil => intro n x hm; cases hm
  | cons e l ih =>
    intro n x hm
    cases e with
    | initial n' x' =>
      unfold lastInitial at h
      cases hl : lastInitial l <;> rw [hl] at h <;> cases h
    | manager _ _ =>
      rcases List.mem_cons.1 hm with h1 | h1
      · cases h1
      · exact ih h n x h1
    | other _ _ =>
      rcases List.mem_cons.1 hm with h1 | h1
      · cases h1
      · exact ih h n x h1

theorem lastInitial_unique {l : List (Ext β)} {n x : Str} (hm : Ext.initial n x ∈ l)
    (hu : ∀ n' x', Ext.initial n' x' ∈ l → n' = n ∧ x' = x) : lastInitial l = some (n, x) := by
  cases h : lastInitial l with
  | none => exact absurd hm (lastInitial_none h n x)
  | some y =>
    obtain ⟨n', x'⟩ := y
    obtain ⟨rfl, rfl⟩ := hu _ _ (lastInitial_mem h)
    rfl

abbrev MgrCfg := AMap Str (List Str) × AMap Str (List (List Str))

theorem pick_none (x : Str) (l : List (Ext β)) (s : Option MgrCfg × List (Ext β) × Bool) (c : MgrCfg)
    (h : (l.foldl (pickStep x) s).1 = some c) : s.1 = some c ∨ (Ext.manager c.1 c.2 ∈ l ∧ x = nmManager) := by
  induction l generalizing s with
  | nil => exact Or.inl h
  | cons e l ih =>
    rw [List.foldl_cons] at h
    rcases ih _ h with h1 | ⟨h1, h2⟩
    · unfold pickStep at h1
      split at h1
      · rename_i hx
        cases e with
        | manager so ex => cases h1; exact Or.inr ⟨List.mem_cons_self, hx.symm⟩
        | initial _ _ => cases h1
        | other _ _ => cases h1
      · exact Or.inl h1
    · exact Or.inr ⟨List.mem_cons_of_mem _ h1, h2⟩

/-- only managers have the manager's name -/
def OnlyManagers (l : List (Ext β)) : Prop := ∀ e ∈ l, e.name = nmManager → ∃ so ex, e = .manager so ex

theorem pick_manager (l : List (Ext β)) (ho : OnlyManagers l) (s : Option MgrCfg × List (Ext β) × Bool) :
    (l.foldl (pickStep nmManager) s).2 = (s.2.1 ++ l.filter (fun e => decide (e.name ≠ nmManager)), s.2.2) ∧
    ∀ c : MgrCfg, (∀ so ex, Ext.manager so ex ∈ l → so = c.1 ∧ ex = c.2) → (s.1 = some c ∨ Ext.manager c.1 c.2 ∈ l) →
      (s.1 = none ∨ s.1 = some c) → (l.foldl (pickStep nmManager) s).1 = some c := by
  induction l generalizing s with
  | nil =>
    refine ⟨by simp, ?_⟩
    rintro c _ (h | h) _
    · exact h
    · cases h
  | cons e l ih =>
    have ho' : OnlyManagers l := fun e' he' => ho e' (List.mem_cons_of_mem _ he')
    rw [List.foldl_cons]
    obtain ⟨i1, i2⟩ := ih ho' (pickStep nmManager s e)
    by_cases hn : e.name = nmManager
    · obtain ⟨so, ex, rfl⟩ := ho e List.mem_cons_self hn
      have hp : pickStep nmManager s (Ext.manager so ex) = (some (so, ex), s.2.1, s.2.2) := by
        unfold pickStep; rw [if_pos hn]
      rw [hp] at i1 i2 ⊢
      refine ⟨?_, ?_⟩
      · rw [i1, List.filter_cons, if_neg (by simp [Ext.name])]
      · intro c hu _ _
        obtain ⟨rfl, rfl⟩ := hu so ex List.mem_cons_self
        exact i2 c (fun so' ex' h' => hu so' ex' (List.mem_cons_of_mem _ h')) (Or.inl rfl) (Or.inr rfl)
    · have hp : pickStep nmManager s e = (s.1, s.2.1 ++ [e], s.2.2) := by
        unfold pickStep; rw [if_neg hn]
      rw [hp] at i1 i2 ⊢
      refine ⟨?_, ?_⟩
      · rw [i1, List.filter_cons, if_pos (by simpa using hn)]; simp
      · intro c hu hc hs
        refine i2 c (fun so' ex' h' => hu so' ex' (List.mem_cons_of_mem _ h')) ?_ hs
        rcases hc with hc | hc
        · exact Or.inl hc
        · rcases List.mem_cons.1 hc with rfl | hc
          · exact absurd rfl hn
          · exact Or.inr hc

theorem made_onlyManagers {make : Str → Option β → Option β} {l : List (Ext β)} (h : ∀ e ∈ l, Made make e) :
    OnlyManagers l := by
  intro e he hn
  cases e with
  | manager so ex => exact ⟨so, ex, rfl⟩
  | initial n x => exact absurd hn (by show ¬ nmInitial = nmManager; decide)
  | other n s => exact absurd hn (h _ he).2.1

/-! ## C96 -/

/-- The extensions in memory are in order: others than `initial` and the manager, each name once, sorted. -/
structure GoodExts (make : Str → Option β → Option β) (l : List (Ext β)) : Prop where
  others : ∀ e ∈ l, ∃ n s, e = .other n s ∧ n ≠ nmInitial ∧ n ≠ nmManager ∧ ∃ r, make n r = some s
  nodup : (l.map Ext.name).Nodup
  sorted : (l.map Ext.name).Pairwise (fun a b => strLe a b = true)

theorem goodExts_of {make : Str → Option β → Option β} {src : List (Str × Option (ExtCfg β))} {l l' : List (Ext β)}
    (hn : (src.map (·.1)).Nodup) (hs : (src.map (·.1)).Pairwise (fun a b => strLe a b = true))
    (h1 : (l.map Ext.name).Sublist (src.map (·.1))) (h2 : ∀ e ∈ l, Made make e) (h3 : l'.Sublist l)
    (h4 : ∀ e ∈ l', e.isInitial = false ∧ e.name ≠ nmManager) : GoodExts make l' := by
  have h5 := (h3.map Ext.name).trans h1
  refine ⟨?_, hn.sublist h5, hs.sublist h5⟩
  intro e he
  have hm := h2 e (h3.subset he)
  obtain ⟨h6, h7⟩ := h4 e he
  cases e with
  | initial _ _ => cases h6
  | manager _ _ => exact absurd rfl h7
  | other n s => exact ⟨n, s, rfl, hm⟩

/-- What is loaded from folders that carry the names of their extensions. -/
theorem created_own {make : Str → Option β → Option β} {report : Bool} {src : List (Str × Option (ExtCfg β))} {m : ExtMgr β}
    (ho : OwnFolders src) (hn : (src.map (·.1)).Nodup) (hs : (src.map (·.1)).Pairwise (fun a b => strLe a b = true))
    (h : createExtensions make report src = .ok (m, false)) :
    GoodExts make m.exts ∧
      ((m.sort ≠ [] ∨ m.exclusion ≠ []) → m.initial = (nmInitial, nmManager)) ∧
      ((∀ c, (nmInitial, some c) ∉ src) → m.sort = [] ∧ m.exclusion = [] ∧ m.initial = (nmManager, nmManager)) := by
  unfold createExtensions at h
  obtain ⟨l, hl, h⟩ := res_bind_eq_ok.1 h
  obtain ⟨h1, h20⟩ := scan_own ho hl
  have h2 : ∀ e ∈ l, Made make e := fun e he => (h20 e he).1
  simp only at h
  have hsub : (l.filter (fun e => !e.isInitial)).Sublist l := List.filter_sublist
  have hni : ∀ e ∈ l.filter (fun e => !e.isInitial), e.isInitial = false := by
    intro e he
    simpa using (List.mem_filter.1 he).2
  cases hi : lastInitial l with
  | none =>
    rw [hi] at h
    simp only [Option.getD_none, Bool.false_or, Option.isSome_none, Bool.and_false] at h
    injection h with h
    have hm := congrArg Prod.fst h
    simp only at hm
    subst hm
    refine ⟨goodExts_of hn hs h1 h2 (List.filter_sublist.trans hsub) ?_, ?_, fun _ => ⟨rfl, rfl, rfl⟩⟩
    · intro e he
      obtain ⟨h3, h4⟩ := List.mem_filter.1 he
      exact ⟨hni e h3, by simpa using h4⟩
    · rintro (h3 | h3) <;> exact absurd rfl h3
  | some nx =>
    obtain ⟨n, x⟩ := nx
    rw [hi] at h
    simp only at h
    have hn' : n = nmInitial := h2 _ (lastInitial_mem hi)
    generalize hp : (l.filter (fun e => !e.isInitial)).foldl (pickStep x) (none, [], false) = p at h
    have hkept : p.2.1.Sublist l := by
      have key : ∀ (r : List (Ext β)) (s : Option MgrCfg × List (Ext β) × Bool),
          (r.foldl (pickStep x) s).2.1.Sublist (s.2.1 ++ r) := by
        intro r
        induction r with
        | nil => intro s; simp
        | cons e r ih =>
          intro s
          rw [List.foldl_cons]
          refine (ih _).trans ?_
          unfold pickStep
          split
          · cases e <;> simp
          · simp
      rw [← hp]
      exact (key _ _).trans (by simp)
    have hkeptni : ∀ e ∈ p.2.1, e.isInitial = false := by
      have key : ∀ (r : List (Ext β)) (s : Option MgrCfg × List (Ext β) × Bool), (∀ e ∈ s.2.1, e.isInitial = false) →
          (∀ e ∈ r, e.isInitial = false) → ∀ e ∈ (r.foldl (pickStep x) s).2.1, e.isInitial = false := by
        intro r
        induction r with
        | nil => intro s h _; exact h
        | cons e r ih =>
          intro s h3 h4
          rw [List.foldl_cons]
          refine ih _ ?_ (fun e' he' => h4 e' (List.mem_cons_of_mem _ he'))
          have h5 : ∀ e' ∈ s.2.1 ++ [e], e'.isInitial = false := by
            intro e' he'
            rcases List.mem_append.1 he' with h6 | h6
            · exact h3 e' h6
            · rw [List.mem_singleton.1 h6]; exact h4 e List.mem_cons_self
          unfold pickStep
          split
          · cases e with
            | manager _ _ => exact h3
            | initial _ _ => exact h5
            | other _ _ => exact h5
          · exact h5
      rw [← hp]
      exact key _ _ (fun e he => by cases he) hni
    injection h with h
    have hm0 := congrArg Prod.fst h
    simp only at hm0
    have hm1 : m.exts = p.2.1.filter (fun e => decide (e.name ≠ nmManager)) := by rw [← hm0]
    have hm2 : m.initial = (n, x) := by rw [← hm0]; rfl
    have hm3 : p.1.isNone = false := by
      have := congrArg Prod.snd h
      simp only [Option.isSome_some, Bool.and_true, Bool.or_eq_false_iff] at this
      exact this.1.2
    have hx : x = nmManager := by
      cases hp1 : p.1 with
      | none => rw [hp1] at hm3; cases hm3
      | some c =>
        rw [← hp] at hp1
        rcases pick_none x _ _ c hp1 with h3 | ⟨_, h3⟩
        · cases h3
        · exact h3
    refine ⟨?_, ?_, ?_⟩
    · rw [hm1]
      refine goodExts_of hn hs h1 h2 (List.filter_sublist.trans hkept) ?_
      intro e he
      obtain ⟨h3, h4⟩ := List.mem_filter.1 he
      exact ⟨hkeptni e h3, by simpa using h4⟩
    · intro _
      rw [hm2, hn', hx]
    · intro hno
      obtain ⟨c, hc⟩ := (h20 _ (lastInitial_mem hi)).2
      exact absurd hc (hno c)

/-! ## Writing and reading again -/

theorem mset_perm {K V : Type} [DecidableEq K] {d : AMap K V} (hn : (mkeys d).Nodup) (k : K) (v : V) :
    (mset d k v).Perm ((k, v) :: d.filter (fun e => decide (e.1 ≠ k))) := by
  induction d with
  | nil => exact List.Perm.refl _
  | cons e d ih =>
    obtain ⟨k', v'⟩ := e
    rw [mkeys_cons, List.nodup_cons] at hn
    by_cases h : k' = k
    · subst h
      have : d.filter (fun e => decide (e.1 ≠ k')) = d := by
        rw [List.filter_eq_self]
        intro e he
        simp only [ne_eq, decide_eq_true_eq]
        rintro rfl
        exact hn.1 (mem_mkeys_of_mem (k := e.1) (v := e.2) he)
      simp only [mset, if_true, List.filter_cons, ne_eq, not_true_eq_false, decide_false, Bool.false_eq_true, if_false]
      simp only [ne_eq] at this
      rw [this]
    · simp only [mset, List.filter_cons, ne_eq, h, not_false_eq_true, decide_true, if_true]
      exact ((ih hn.2).cons _).trans (List.Perm.swap _ _ _)

theorem foldl_mset_perm {V W : Type} (g : V → W) (F : List (Str × V)) (d : AMap Str W) (hF : (F.map (·.1)).Nodup)
    (hd : (mkeys d).Nodup) : (F.foldl (fun d e => mset d e.1 (g e.2)) d).Perm
      (F.map (fun e => (e.1, g e.2)) ++ d.filter (fun e => decide (e.1 ∉ F.map (·.1)))) := by
  induction F generalizing d with
  | nil => simp
  | cons e F ih =>
    rw [List.map_cons, List.nodup_cons] at hF
    rw [List.foldl_cons]
    refine (ih _ hF.2 (mkeys_mset_nodup hd _ _)).trans ?_
    have h1 := (mset_perm hd e.1 (g e.2)).filter (fun a => decide (a.1 ∉ F.map (·.1)))
    rw [List.filter_cons, if_pos (by simpa using hF.1), List.filter_filter] at h1
    have h2 : d.filter (fun a => decide (a.1 ∉ F.map (·.1)) && decide (a.1 ≠ e.1)) =
        d.filter (fun a => decide (a.1 ∉ (e :: F).map (·.1))) := by
      apply List.filter_congr
      intro a _
      by_cases h3 : a.1 = e.1 <;> simp [h3]
    rw [h2] at h1
    rw [List.map_cons, List.cons_append]
    exact (List.Perm.append_left _ h1).trans List.perm_middle

/-- what a sub folder contributes -/
def contrib (make : Str → Option β → Option β) (e : Str × Option (ExtCfg β)) : List (Ext β) := (scanFolder make e).getD []

theorem scanFolders_eq {make : Str → Option β → Option β} {report : Bool} {D : List (Str × Option (ExtCfg β))}
    (h : report = true ∨ ∀ e ∈ D, scanFolder make e ≠ none) : scanFolders make report D = .ok (D.flatMap (contrib make)) := by
  induction D with
  | nil => rfl
  | cons e D ih =>
    have h' : report = true ∨ ∀ e ∈ D, scanFolder make e ≠ none := h.imp id (fun h a ha => h a (List.mem_cons_of_mem _ ha))
    unfold scanFolders
    rw [List.flatMap_cons]
    unfold contrib at ih ⊢
    cases he : scanFolder make e with
    | none =>
      rcases h with h | h
      · simp only [h, if_true, Option.getD_none, List.nil_append]
        rw [h] at ih
        exact ih (Or.inl rfl)
      · exact absurd he (h e List.mem_cons_self)
    | some l =>
      simp only [ih h', Option.getD_some]
      rfl

/-- The folders give the extensions, one `initial` that names the manager, and one manager. -/
theorem created_of_perm {make : Str → Option β → Option β} {report : Bool} {D : List (Str × Option (ExtCfg β))} {exts : List (Ext β)}
    {n : Str} {so : AMap Str (List Str)} {ex : AMap Str (List (List Str))} (hg : GoodExts make exts)
    (hs : (D.map (·.1)).Pairwise (fun a b => strLe a b = true))
    (h : report = true ∨ ∀ e ∈ D, scanFolder make e ≠ none)
    (hc : ∀ e ∈ D, (((contrib make e).filter (fun x => !x.isInitial)).filter (fun x => decide (x.name ≠ nmManager))).map Ext.name |>.Sublist [e.1])
    (hp : (D.flatMap (contrib make)).Perm (exts ++ [.initial n nmManager, .manager so ex])) :
    createExtensions make report D = .ok (⟨so, ex, exts, (n, nmManager)⟩, false) := by
  unfold createExtensions
  rw [scanFolders_eq h, res_bind_ok]
  generalize hl : D.flatMap (contrib make) = l at hp
  have hmem : ∀ e, e ∈ l ↔ e ∈ exts ∨ e = .initial n nmManager ∨ e = .manager so ex := by
    intro e; rw [hp.mem_iff]; simp
  have hi : lastInitial l = some (n, nmManager) := by
    apply lastInitial_unique ((hmem _).2 (Or.inr (Or.inl rfl)))
    intro n' x' hx
    rcases (hmem _).1 hx with h1 | h1 | h1
    · obtain ⟨_, _, h2, _⟩ := hg.others _ h1; cases h2
    · cases h1; exact ⟨rfl, rfl⟩
    · cases h1
  have hom : OnlyManagers (l.filter (fun e => !e.isInitial)) := by
    intro e he hn
    rcases (hmem _).1 (List.mem_filter.1 he).1 with h1 | h1 | h1
    · obtain ⟨_, _, rfl, _, h2, _⟩ := hg.others _ h1; exact absurd hn h2
    · subst h1; exact absurd hn (by show ¬ nmInitial = nmManager; decide)
    · exact ⟨_, _, h1⟩
  obtain ⟨k1, k2⟩ := pick_manager (l.filter (fun e => !e.isInitial)) hom (none, [], false)
  have k3 := k2 (so, ex) (by
    intro so' ex' hx
    rcases (hmem _).1 (List.mem_filter.1 hx).1 with h1 | h1 | h1
    · obtain ⟨_, _, h2, _⟩ := hg.others _ h1; cases h2
    · cases h1
    · cases h1; exact ⟨rfl, rfl⟩) (Or.inr (List.mem_filter.2 ⟨(hmem _).2 (Or.inr (Or.inr rfl)), rfl⟩)) (Or.inl rfl)
  simp only [hi]
  generalize hq : (l.filter (fun e => !e.isInitial)).foldl (pickStep nmManager) (none, [], false) = q at k1 k3
  obtain ⟨q1, q2, q3⟩ := q
  simp only [List.nil_append, Prod.mk.injEq] at k1 k3
  obtain ⟨rfl, rfl⟩ := k1
  subst k3
  have hexts : (l.filter (fun e => !e.isInitial)).filter (fun e => decide (e.name ≠ nmManager)) = exts := by
    have hsub : (((l.filter (fun e => !e.isInitial)).filter (fun e => decide (e.name ≠ nmManager))).map Ext.name).Sublist (D.map (·.1)) := by
      rw [← hl]
      clear hl hp hmem hi hom k2 hq h hs hg
      induction D with
      | nil => simp
      | cons e D ih =>
        rw [List.flatMap_cons, List.filter_append, List.filter_append, List.map_append, List.map_cons]
        exact (hc e List.mem_cons_self).append (ih (fun a ha => hc a (List.mem_cons_of_mem _ ha)))
    have hself : ((exts ++ [Ext.initial n nmManager, .manager so ex]).filter (fun e : Ext β => !e.isInitial)).filter
        (fun e => decide (e.name ≠ nmManager)) = exts := by
      rw [List.filter_append, List.filter_append]
      have h1 : (exts.filter (fun e => !e.isInitial)) = exts := by
        rw [List.filter_eq_self]
        intro e he
        obtain ⟨_, _, rfl, _⟩ := hg.others _ he
        rfl
      have h2 : exts.filter (fun e => decide (e.name ≠ nmManager)) = exts := by
        rw [List.filter_eq_self]
        intro e he
        obtain ⟨_, _, rfl, _, h2, _⟩ := hg.others _ he
        exact decide_eq_true h2
      rw [h1, h2]
      simp [Ext.isInitial, Ext.name]
    have hperm := (hp.filter (fun e => !e.isInitial)).filter (fun e => decide (e.name ≠ nmManager))
    rw [hself] at hperm
    refine hperm.eq_of_pairwise (le := fun a b => strLe a.name b.name = true) ?_ (List.pairwise_map.1 (hs.sublist hsub))
      (List.pairwise_map.1 hg.sorted)
    intro a b ha hb h1 h2
    have hab : a.name = b.name := strLe_antisymm h1 h2
    exact List.inj_on_of_nodup_map hg.nodup (hperm.mem_iff.1 ha) hb hab
  rw [hexts]
  have h1 : exts.filter (fun e => decide (e.name ≠ nmManager)) = exts := by
    rw [← hexts, List.filter_filter]; simp
  have h2 : exts.any (fun e => decide (e.name = nmManager)) = false := by
    rw [List.any_eq_false]
    intro e he
    obtain ⟨_, _, rfl, _, h2, _⟩ := hg.others _ he
    exact fun h => h2 (of_decide_eq_true h)
  rw [h1, h2]
  rfl

theorem scan_other {make : Str → Option β → Option β} {n : Str} {s : β} (h1 : n ≠ nmInitial) (h2 : n ≠ nmManager)
    (h3 : make n (some s) = some s) : scanFolder make (n, some (Ext.other n s).cfg) = some [.other n s] := by
  have : createExt make (Ext.other n s).cfg = some (.other n s) := by
    unfold createExt Ext.cfg
    simp only [if_neg h1, if_neg h2, h3, Option.map_some]
  unfold scanFolder
  simp only [Option.bind_some, this, Option.map_some]
  rw [if_neg (fun h => h1 h.1)]

theorem goodExts_map {make : Str → Option β → Option β} {l : List (Ext β)} (hk : Keeps make) (hg : GoodExts make l) :
    ∀ e ∈ l, scanFolder make (e.name, some e.cfg) = some [e] := by
  intro e he
  obtain ⟨n, s, rfl, h1, h2, r, h3⟩ := hg.others e he
  exact scan_other h1 h2 (hk n r s h3)

theorem flatMap_self {make : Str → Option β → Option β} {l : List (Ext β)} (h : ∀ e ∈ l, scanFolder make (e.name, some e.cfg) = some [e]) :
    (l.map (fun e => (e.name, some e.cfg))).flatMap (contrib make) = l := by
  induction l with
  | nil => rfl
  | cons e l ih =>
    rw [List.map_cons, List.flatMap_cons, ih (fun a ha => h a (List.mem_cons_of_mem _ ha))]
    unfold contrib
    rw [h e List.mem_cons_self]
    rfl

theorem mgrFiles_nodup {make : Str → Option β → Option β} {m : ExtMgr β} (hg : GoodExts make m.exts) :
    ((mgrFiles m).map (·.1)).Nodup := by
  have h1 : nmInitial ∉ m.exts.map Ext.name := by
    intro h
    obtain ⟨e, he, h⟩ := List.mem_map.1 h
    obtain ⟨_, _, rfl, h1, _⟩ := hg.others e he
    exact h1 h
  have h2 : nmManager ∉ m.exts.map Ext.name := by
    intro h
    obtain ⟨e, he, h⟩ := List.mem_map.1 h
    obtain ⟨_, _, rfl, _, h1, _⟩ := hg.others e he
    exact h1 h
  have h3 : ((m.exts ++ [Ext.initial m.initial.1 m.initial.2]).map Ext.name).Nodup := by
    rw [List.map_append, List.nodup_append]
    refine ⟨hg.nodup, by simp, ?_⟩
    intro a ha b hb
    have : b = nmInitial := by simpa [Ext.name] using hb
    rw [this]; rintro rfl; exact h1 ha
  unfold mgrFiles
  rw [List.map_append, List.map_map]
  split
  · rw [List.nodup_append]
    refine ⟨h3, by simp, ?_⟩
    intro a ha b hb
    have : b = nmManager := by simpa using hb
    rw [this]
    rintro rfl
    change nmManager ∈ (m.exts ++ [Ext.initial m.initial.1 m.initial.2]).map Ext.name at ha
    rw [List.map_append, List.mem_append] at ha
    rcases ha with ha | ha
    · exact h2 ha
    · exact absurd (List.mem_singleton.1 ha) (by show ¬ nmManager = nmInitial; decide)
  · rw [List.map_nil, List.append_nil]
    exact h3

theorem store_perm {make : Str → Option β → Option β} {m : ExtMgr β} (hg : GoodExts make m.exts) (folders : Bool) :
    (readDirs (storeExts folders m)).Perm ((mgrFiles m).map (fun e => (e.1, some e.2)) ++
      (if folders then [(nmManager, none)] else []).filter (fun e => decide (e.1 ∉ (mgrFiles m).map (·.1)))) := by
  refine (sortBy_perm _ _).trans ?_
  unfold storeExts
  refine foldl_mset_perm (g := some) (mgrFiles m) _ (mgrFiles_nodup hg) ?_
  cases folders <;> simp [mkeys]

theorem readDirs_sorted (d : AMap Str (Option (ExtCfg β))) : ((readDirs d).map (·.1)).Pairwise (fun a b => strLe a b = true) :=
  List.pairwise_map.2 (sortBy_sorted (fun a b => strLe a.1 b.1) (fun a b => strLe_total a.1 b.1) (fun _ _ _ => strLe_trans) d)

/-- The extensions are the same: rules of the manager, extensions in their order with their state. -/
def SameExts (a b : ExtMgr β) : Prop := a.sort = b.sort ∧ a.exclusion = b.exclusion ∧ a.exts = b.exts

/-- **C96, in full**: the extensions loaded from a folder (sorted by name, as `ReadDir` gives it) without error are the same
after they were stored with a new object or storage root and loaded from there. -/
def C96_full : Prop := ∀ (β : Type) (make : Str → Option β → Option β) (report report' folders : Bool)
  (src : List (Str × Option (ExtCfg β))) (m : ExtMgr β), Keeps make → (src.map (·.1)).Nodup →
  (src.map (·.1)).Pairwise (fun a b => strLe a b = true) → createExtensions make report src = .ok (m, false) →
  ∃ m', createExtensions make report' (readDirs (storeExts folders m)) = .ok (m', false) ∧ SameExts m m'

/-- **C96, the part that holds**: if every folder carries the name of its extension and the manager has rules. -/
theorem C96_rules_partial {make : Str → Option β → Option β} {report : Bool} {src : List (Str × Option (ExtCfg β))} {m : ExtMgr β}
    (hk : Keeps make) (ho : OwnFolders src) (hn : (src.map (·.1)).Nodup)
    (hs : (src.map (·.1)).Pairwise (fun a b => strLe a b = true)) (h : createExtensions make report src = .ok (m, false))
    (hr : m.sort ≠ [] ∨ m.exclusion ≠ []) (report' folders : Bool) :
    createExtensions make report' (readDirs (storeExts folders m)) = .ok (m, false) := by
  obtain ⟨hg, hi, _⟩ := created_own ho hn hs h
  have hi := hi hr
  obtain ⟨so, ex, exts, ini⟩ := m
  simp only at hg hi hr
  subst hi
  have hp := store_perm (m := ⟨so, ex, exts, (nmInitial, nmManager)⟩) hg folders
  have hF : (mgrFiles (⟨so, ex, exts, (nmInitial, nmManager)⟩ : ExtMgr β)).map (fun e => (e.1, some e.2)) =
      (exts ++ [Ext.initial nmInitial nmManager, .manager so ex]).map (fun e : Ext β => (e.name, some e.cfg)) := by
    unfold mgrFiles
    rw [if_pos hr.symm]
    simp [Ext.name]
  have hleft : ((if folders then [(nmManager, (none : Option (ExtCfg β)))] else []).filter
      (fun e => decide (e.1 ∉ (mgrFiles (⟨so, ex, exts, (nmInitial, nmManager)⟩ : ExtMgr β)).map (·.1)))) = [] := by
    rw [List.filter_eq_nil_iff]
    intro e he
    have : e.1 = nmManager := by
      cases folders
      · cases he
      · rw [List.mem_singleton.1 he]
    rw [this]
    simp only [decide_eq_true_eq, not_not]
    unfold mgrFiles
    rw [if_pos hr.symm]
    simp
  rw [hF, hleft, List.append_nil] at hp
  have hscan : ∀ e ∈ exts ++ [Ext.initial nmInitial nmManager, .manager so ex], scanFolder make (e.name, some e.cfg) = some [e] := by
    intro e he
    rcases List.mem_append.1 he with he | he
    · exact goodExts_map hk hg e he
    · simp only [List.mem_cons, List.not_mem_nil, or_false] at he
      rcases he with rfl | rfl <;> rfl
  have hD : ∀ d ∈ readDirs (storeExts folders (⟨so, ex, exts, (nmInitial, nmManager)⟩ : ExtMgr β)), ∃ e,
      d = (e.name, some e.cfg) ∧ scanFolder make d = some [e] := by
    intro d hd
    obtain ⟨e, he, rfl⟩ := List.mem_map.1 (hp.mem_iff.1 hd)
    exact ⟨e, rfl, hscan e he⟩
  refine created_of_perm hg (readDirs_sorted _) (Or.inr ?_) ?_ ?_
  · intro d hd
    obtain ⟨e, _, h2⟩ := hD d hd
    rw [h2]; simp
  · intro d hd
    obtain ⟨e, h1, h2⟩ := hD d hd
    unfold contrib
    rw [h2, h1]
    exact (List.filter_sublist.trans List.filter_sublist).map _
  · have := List.Perm.flatMap_right (contrib make) hp
    rwa [flatMap_self hscan] at this

/-- **C96, the part that holds**: without a folder `initial`; if there are folders without files somebody must be there to
report to. -/
theorem C96_plain_partial {make : Str → Option β → Option β} {report : Bool} {src : List (Str × Option (ExtCfg β))} {m : ExtMgr β}
    (hk : Keeps make) (ho : OwnFolders src) (hn : (src.map (·.1)).Nodup)
    (hs : (src.map (·.1)).Pairwise (fun a b => strLe a b = true)) (h : createExtensions make report src = .ok (m, false))
    (hno : ∀ c, (nmInitial, some c) ∉ src) (report' folders : Bool) (hf : report' = true ∨ folders = false) :
    createExtensions make report' (readDirs (storeExts folders m)) = .ok (m, false) := by
  obtain ⟨hg, _, hi⟩ := created_own ho hn hs h
  obtain ⟨rfl', rfl'', hi⟩ := hi hno
  obtain ⟨so, ex, exts, ini⟩ := m
  simp only at hg hi rfl' rfl''
  subst hi rfl' rfl''
  have hp := store_perm (m := ⟨[], [], exts, (nmManager, nmManager)⟩) hg folders
  have hF : (mgrFiles (⟨[], [], exts, (nmManager, nmManager)⟩ : ExtMgr β)).map (fun e => (e.1, some e.2)) =
      exts.map (fun e => (e.name, some e.cfg)) ++ [(nmInitial, some (Ext.initial nmManager nmManager).cfg)] := by
    unfold mgrFiles
    rw [if_neg (by simp)]
    simp [Ext.name]
  generalize hL : ((if folders then [(nmManager, (none : Option (ExtCfg β)))] else []).filter
      (fun e => decide (e.1 ∉ (mgrFiles (⟨[], [], exts, (nmManager, nmManager)⟩ : ExtMgr β)).map (·.1)))) = L at hp
  have hL1 : ∀ d ∈ L, d = (nmManager, none) ∧ folders = true := by
    intro d hd
    rw [← hL] at hd
    have := (List.mem_filter.1 hd).1
    cases folders
    · cases this
    · exact ⟨List.mem_singleton.1 this, rfl⟩
  rw [hF] at hp
  have hini : scanFolder make (nmInitial, some (Ext.initial nmManager nmManager : Ext β).cfg) =
      some [.initial nmManager nmManager, .manager [] []] := rfl
  have hD : ∀ d ∈ readDirs (storeExts folders (⟨[], [], exts, (nmManager, nmManager)⟩ : ExtMgr β)),
      (∃ e ∈ exts, d = (e.name, some e.cfg) ∧ scanFolder make d = some [e]) ∨
      (d = (nmInitial, some (Ext.initial nmManager nmManager).cfg)) ∨ (d = (nmManager, none) ∧ folders = true) := by
    intro d hd
    rcases List.mem_append.1 (hp.mem_iff.1 hd) with h1 | h1
    · rcases List.mem_append.1 h1 with h1 | h1
      · obtain ⟨e, he, rfl⟩ := List.mem_map.1 h1
        exact Or.inl ⟨e, he, rfl, goodExts_map hk hg e he⟩
      · exact Or.inr (Or.inl (List.mem_singleton.1 h1))
    · exact Or.inr (Or.inr (hL1 d h1))
  refine created_of_perm hg (readDirs_sorted _) ?_ ?_ ?_
  · rcases hf with hf | hf
    · exact Or.inl hf
    · right
      intro d hd
      rcases hD d hd with ⟨e, _, _, h2⟩ | rfl | ⟨_, h2⟩
      · rw [h2]; simp
      · rw [hini]; simp
      · rw [hf] at h2; cases h2
  · intro d hd
    rcases hD d hd with ⟨e, _, h1, h2⟩ | rfl | ⟨rfl, _⟩
    · unfold contrib
      rw [h2, h1]
      exact (List.filter_sublist.trans List.filter_sublist).map _
    · unfold contrib
      rw [hini]
      simp [Ext.isInitial, Ext.name]
    · simp [contrib, scanFolder]
  · have h1 := List.Perm.flatMap_right (contrib make) hp
    rw [List.flatMap_append, List.flatMap_append, flatMap_self (goodExts_map hk hg)] at h1
    have h2 : L.flatMap (contrib make) = [] := by
      rw [List.flatMap_eq_nil_iff]
      intro d hd
      rw [(hL1 d hd).1]; rfl
    rw [h2, List.append_nil] at h1
    exact h1

/-! ## Configurations -/

/-- the creators of the layouts used below -/
def sciMake (n : Str) (r : Option Layout) : Option Layout :=
  if n ∈ [nmFlatDirect, nmFlatOmit, nmDirectClean, nmPathDirect] then r else none

theorem sciMake_keeps : Keeps sciMake := by
  intro n r s h
  unfold sciMake at h ⊢
  split at h
  · rename_i hn; rw [if_pos hn]
  · cases h

/-- direct-clean as configured in /repo/data/scicoreextensions/storageroot -/
def sciClean : DCCfg := { dcUTF with utf := false, repl := "_".toList, white := " ".toList, maxPathname := 32000, maxSegment := 127 }

def sciSort : AMap Str (List Str) := [(hookRoot, [nmDirectClean])]
def sciExcl : AMap Str (List (List Str)) :=
  [(hookRoot, [[nmDirectClean, nmHashId, nmHashed, nmFlatDirect, nmFlatOmit, nmPairtree, nmPathDirect]])]
def sciLayouts : List (Ext Layout) :=
  [.other nmFlatOmit (.flatOmit ":".toList), .other nmDirectClean (.directClean [] sciClean), .other nmPathDirect .pathDirect]

/-- /repo/data/scicoreextensions/storageroot (and nomigrationextensions): the folder `initial` has the manager -/
def sciSrc : List (Str × Option (ExtCfg Layout)) :=
  sciLayouts.map (fun e => (e.name, some e.cfg)) ++
    [(nmInitial, some { name := nmManager, sort := sciSort, exclusion := sciExcl })]

/-- /repo/data/defaultextensions/storageroot: `initial` and the manager have folders of their own -/
def defSrc : List (Str × Option (ExtCfg Layout)) :=
  sciLayouts.map (fun e => (e.name, some e.cfg)) ++
    [(nmManager, some { name := nmManager, sort := sciSort, exclusion := sciExcl }),
     (nmInitial, some { name := nmInitial, extension := some nmManager })]

theorem sciSrc_created (report : Bool) : createExtensions sciMake report sciSrc =
    .ok (⟨sciSort, sciExcl, sciLayouts, (nmManager, nmManager)⟩, false) := by
  cases report <;> decide

theorem sciSrc_reloaded (report folders : Bool) :
    createExtensions sciMake report (readDirs (storeExts folders (⟨sciSort, sciExcl, sciLayouts, (nmManager, nmManager)⟩ : ExtMgr Layout))) =
      .ok (⟨[], [], sciLayouts, (nmManager, nmManager)⟩, false) := by
  cases report <;> cases folders <;> decide

/-- the default configuration meets the hypotheses -/
example (report report' folders : Bool) :
    ∃ m, createExtensions sciMake report defSrc = .ok (m, false) ∧ m.exclusion = sciExcl ∧ m.exts = sciLayouts ∧
      createExtensions sciMake report' (readDirs (storeExts folders m)) = .ok (m, false) := by
  have h : createExtensions sciMake report defSrc = .ok (⟨sciSort, sciExcl, sciLayouts, (nmInitial, nmManager)⟩, false) := by
    cases report <;> decide
  refine ⟨_, h, rfl, rfl, C96_rules_partial sciMake_keeps ?_ (by decide) (by decide) h (Or.inl (by decide)) _ _⟩
  intro f c hc
  have : ∀ e ∈ defSrc, e.2.all (fun c => decide (c.name = e.1)) = true := by decide
  simpa using this _ hc

/-- so does a configuration without `initial` -/
example : ∃ m, createExtensions sciMake true (sciLayouts.map (fun e => (e.name, some e.cfg))) = .ok (m, false) ∧
    m.exts = sciLayouts ∧ createExtensions sciMake true (readDirs (storeExts true m)) = .ok (m, false) := by
  have h : createExtensions sciMake true (sciLayouts.map (fun e => (e.name, some e.cfg))) =
    .ok (⟨[], [], sciLayouts, (nmManager, nmManager)⟩, false) := by decide
  refine ⟨_, h, rfl, C96_plain_partial sciMake_keeps ?_ (by decide) (by decide) h ?_ _ _ (Or.inl rfl)⟩
  · intro f c hc
    have : ∀ e ∈ sciLayouts.map (fun e => (e.name, some e.cfg)), e.2.all (fun c => decide (c.name = e.1)) = true := by decide
    simpa using this _ hc
  · intro c hc
    have : ∀ e ∈ sciLayouts.map (fun e => (e.name, some e.cfg)), e.1 ≠ nmInitial := by decide
    exact this _ hc rfl

/-- **C96 is violated** by configurations that come with the tool: `SetExtension` spoils the name in the configuration of
`initial`, which is then loaded as a second manager, one without rules, that wins. -/
theorem C96_full_fails : ¬ C96_full := by
  intro hf
  obtain ⟨m', h1, h2, _⟩ := hf Layout sciMake true true true sciSrc _ sciMake_keeps (by decide) (by decide) (sciSrc_created true)
  rw [sciSrc_reloaded] at h1
  cases h1
  exact absurd h2 (by decide)

/-- the layouts in use -/
def layoutsOf (hashes : Str → Option (Str → Str)) (l : List (Ext Layout)) : List (Str → Res Str) :=
  l.filterMap (fun e => match e with
    | .other _ s => some (layoutPath hashes s)
    | _ => none)

/-- With that configuration the folder of an object changes between the session that creates the storage root and the next:
only direct-clean is in use first, all three layouts one after the other later. -/
theorem C96_full_fails_layout (hashes : Str → Option (Str → Str)) : ∃ m m' : ExtMgr Layout,
    createExtensions sciMake false sciSrc = .ok (m, false) ∧
    createExtensions sciMake false (readDirs (storeExts false m)) = .ok (m', false) ∧
    ∀ r r', Organized Ext.name (mget m.exclusion hookRoot) (mget m.sort hookRoot) m.exts r →
      Organized Ext.name (mget m'.exclusion hookRoot) (mget m'.sort hookRoot) m'.exts r' →
      rootPath (layoutsOf hashes r) "urn:a".toList = ("urn_a".toList, false) ∧
      rootPath (layoutsOf hashes r') "urn:a".toList = ("a".toList, false) := by
  refine ⟨_, _, sciSrc_created _, sciSrc_reloaded _ _, ?_⟩
  intro r r' hr hr'
  have h' : r' = sciLayouts := by
    obtain ⟨m, h1, h2⟩ := hr'
    exact h2.trans h1
  have hr : Organized Ext.name (some [[nmDirectClean, nmHashId, nmHashed, nmFlatDirect, nmFlatOmit, nmPairtree, nmPathDirect]])
    (some [nmDirectClean]) sciLayouts r := hr
  have hall : ∀ e ∈ sciLayouts, e.name ∈ [nmDirectClean, nmHashId, nmHashed, nmFlatDirect, nmFlatOmit, nmPairtree, nmPathDirect] := by
    decide
  obtain ⟨e, h1, h2, h3, h4⟩ := C55_best_remains_partial hr (by simp [DisjointGroups]) (by decide) _ List.mem_cons_self
    ⟨.other nmDirectClean (.directClean [] sciClean), by decide, by decide⟩
  have hsub := (C55_at_most_one hr).2.1
  rw [List.filter_eq_self.2 (fun x hx => decide_eq_true (hall x (hsub.subset hx)))] at h1
  have he : e = .other nmDirectClean (.directClean [] sciClean) := by
    have h5 := h4 (.other nmDirectClean (.directClean [] sciClean)) (by decide) (by decide)
    have h6 : ∀ x ∈ sciLayouts, [nmDirectClean, nmHashId, nmHashed, nmFlatDirect, nmFlatOmit, nmPairtree, nmPathDirect].idxOf x.name ≤
        [nmDirectClean, nmHashId, nmHashed, nmFlatDirect, nmFlatOmit, nmPairtree, nmPathDirect].idxOf
          (Ext.other nmDirectClean (Layout.directClean [] sciClean)).name →
        x = .other nmDirectClean (.directClean [] sciClean) := by decide
    exact h6 e h2 h5
  subst he h1 h'
  exact ⟨rfl, rfl⟩

/-- **C96 is violated** also by a manager without rules: its configuration is not stored, `initial` then names a manager that
is not there, and loading is an error. -/
theorem C96_full_fails_empty : ∃ (src : List (Str × Option (ExtCfg Layout))) (m m' : ExtMgr Layout), OwnFolders src ∧
    createExtensions sciMake true src = .ok (m, false) ∧
    createExtensions sciMake true (readDirs (storeExts false m)) = .ok (m', true) := by
  refine ⟨[(nmFlatDirect, some { name := nmFlatDirect, rest := some .flatDirect }), (nmManager, some { name := nmManager }),
    (nmInitial, some { name := nmInitial, extension := some nmManager })],
    ⟨[], [], [.other nmFlatDirect .flatDirect], (nmInitial, nmManager)⟩,
    ⟨[], [], [.other nmFlatDirect .flatDirect], (nmInitial, nmManager)⟩, ?_, by decide, by decide⟩
  intro f c hc
  simp only [List.mem_cons, Prod.mk.injEq, Option.some.injEq, List.not_mem_nil, or_false] at hc
  rcases hc with ⟨rfl, rfl⟩ | ⟨rfl, rfl⟩ | ⟨rfl, rfl⟩ <;> rfl

/-! ## C97 -/

/-- **C97, in full**: a folder whose extension is not supported changes nothing. -/
def C97_full : Prop := ∀ (β : Type) (make : Str → Option β → Option β) (report : Bool) (a b : List (Str × Option (ExtCfg β)))
  (e : Str × Option (ExtCfg β)), scanFolder make e = none →
  createExtensions make report (a ++ e :: b) = createExtensions make report (a ++ b)

/-- **C97, the part that holds**: if there is somebody to report to. -/
theorem C97_ignored_partial (make : Str → Option β → Option β) (a b : List (Str × Option (ExtCfg β)))
    (e : Str × Option (ExtCfg β)) (h : scanFolder make e = none) :
    createExtensions make true (a ++ e :: b) = createExtensions make true (a ++ b) := by
  unfold createExtensions
  rw [scanFolders_eq (Or.inl rfl), scanFolders_eq (Or.inl rfl)]
  have : (a ++ e :: b).flatMap (contrib make) = (a ++ b).flatMap (contrib make) := by
    rw [List.flatMap_append, List.flatMap_append, List.flatMap_cons]
    have : contrib make e = [] := by unfold contrib; rw [h]; rfl
    rw [this]; rfl
  rw [this]

/-- an extension unknown to the tool -/
def foreignExt : Str × Option (ExtCfg Layout) := ("0005-mutable-head".toList, some { name := "0005-mutable-head".toList })

example : createExtensions sciMake true (foreignExt :: defSrc) = createExtensions sciMake true defSrc :=
  C97_ignored_partial sciMake [] defSrc foreignExt (by decide)

/-- **C97 is violated** when a storage root is opened (storageroot.go:116 and 152 report to nobody): it panics. -/
theorem C97_full_fails : ¬ C97_full := by
  intro hf
  have h := hf Layout sciMake false [] defSrc foreignExt (by decide)
  have h1 : createExtensions sciMake false ([] ++ foreignExt :: defSrc) = .error (.panic "nil pointer dereference") := by decide
  have h2 : createExtensions sciMake false ([] ++ defSrc) = .ok (⟨sciSort, sciExcl, sciLayouts, (nmInitial, nmManager)⟩, false) := by decide
  rw [h1, h2] at h
  cases h

end Gocfl
