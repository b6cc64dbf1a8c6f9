import Verif.Props.ExtLoad

/-! # C179: which configurations of the extension manager are taken -/

namespace Gocfl

variable {β : Type}

/-- the folder `initial` names the manager of the tool, or nothing -/
def NamesManager (src : List (Str × Option (ExtCfg β))) : Prop :=
  ∃ c, ("initial".toList, some c) ∈ src ∧ (c.extension = none ∨ c.extension = some "NNNN-gocfl-extension-manager".toList)

/-- there is a configuration in this folder -/
def HasConfig (src : List (Str × Option (ExtCfg β))) (folder : String) : Prop := ∃ c, (folder.toList, some c) ∈ src

theorem scan_report {make : Str → Option β → Option β} (src : List (Str × Option (ExtCfg β))) :
    ∃ l, scanFolders make true src = .ok l := by
  induction src with
  | nil => exact ⟨[], rfl⟩
  | cons a src ih =>
    obtain ⟨l, hl⟩ := ih
    unfold scanFolders
    rw [hl]
    cases scanFolder make a with
    | none => exact ⟨l, rfl⟩
    | some l0 => exact ⟨l0 ++ l, rfl⟩

theorem scan_mem {make : Str → Option β → Option β} {report : Bool} {src : List (Str × Option (ExtCfg β))} {l : List (Ext β)}
    (ho : OwnFolders src) (h : scanFolders make report src = .ok l) (e : Ext β) :
    e ∈ l ↔ ∃ c, (e.name, some c) ∈ src ∧ createExt make c = some e := by
  induction src generalizing l with
  | nil => cases h; simp
  | cons a src ih =>
    have ho' : OwnFolders src := fun f c hc => ho f c (List.mem_cons_of_mem _ hc)
    obtain ⟨f, o⟩ := a
    have hone : ∀ c, o = some c → ∀ x, createExt make c = some x → scanFolder make (f, o) = some [x] := by
      rintro c rfl x hx
      unfold scanFolder
      simp only [Option.bind_some, hx, Option.map_some]
      rw [if_neg]
      rintro ⟨h1, h2⟩
      exact h2 ((createExt_name hx).trans ((ho f c List.mem_cons_self).trans h1))
    unfold scanFolders at h
    cases ha : scanFolder make (f, o) with
    | none =>
      rw [ha] at h
      simp only at h
      split at h
      · rw [ih ho' h]
        constructor
        · rintro ⟨c, h1, h2⟩; exact ⟨c, List.mem_cons_of_mem _ h1, h2⟩
        · rintro ⟨c, h1, h2⟩
          rcases List.mem_cons.1 h1 with h1 | h1
          · cases h1
            rw [hone c rfl e h2] at ha
            cases ha
          · exact ⟨c, h1, h2⟩
      · cases h
    | some l0 =>
      rw [ha] at h
      simp only at h
      obtain ⟨r, hr, h⟩ := res_bind_eq_ok.1 h
      cases h
      rw [List.mem_append, ih ho' hr]
      cases o with
      | none => cases ha
      | some c =>
        cases hx : createExt make c with
        | none =>
          unfold scanFolder at ha
          simp [hx] at ha
        | some x =>
          rw [hone c rfl x hx] at ha
          cases ha
          rw [List.mem_singleton]
          constructor
          · rintro (rfl | ⟨c', h1, h2⟩)
            · refine ⟨c, ?_, hx⟩
              rw [createExt_name hx, ho f c List.mem_cons_self]
              exact List.mem_cons_self
            · exact ⟨c', List.mem_cons_of_mem _ h1, h2⟩
          · rintro ⟨c', h1, h2⟩
            rcases List.mem_cons.1 h1 with h1 | h1
            · cases h1
              rw [hx] at h2
              cases h2
              exact Or.inl rfl
            · exact Or.inr ⟨c', h1, h2⟩

theorem mem_initial {make : Str → Option β → Option β} {report : Bool} {src : List (Str × Option (ExtCfg β))} {l : List (Ext β)}
    (ho : OwnFolders src) (h : scanFolders make report src = .ok l) (n x : Str) :
    Ext.initial n x ∈ l ↔ n = nmInitial ∧ ∃ c, (nmInitial, some c) ∈ src ∧ x = c.extension.getD nmManager := by
  rw [scan_mem ho h]
  constructor
  · rintro ⟨c, h1, h2⟩
    have hcn : c.name = nmInitial := ho _ _ h1
    unfold createExt at h2
    rw [if_pos hcn] at h2
    cases h2
    exact ⟨hcn, c, h1, rfl⟩
  · rintro ⟨rfl, c, h1, rfl⟩
    refine ⟨c, h1, ?_⟩
    unfold createExt
    rw [if_pos (ho _ _ h1), ho _ _ h1]

theorem mem_manager {make : Str → Option β → Option β} {report : Bool} {src : List (Str × Option (ExtCfg β))} {l : List (Ext β)}
    (ho : OwnFolders src) (h : scanFolders make report src = .ok l) (so : AMap Str (List Str)) (ex : AMap Str (List (List Str))) :
    Ext.manager so ex ∈ l ↔ ∃ c, (nmManager, some c) ∈ src ∧ so = c.sort ∧ ex = c.exclusion := by
  rw [scan_mem ho h]
  have hne : nmManager ≠ nmInitial := by decide
  constructor
  · rintro ⟨c, h1, h2⟩
    have hcn : c.name = nmManager := ho _ _ h1
    unfold createExt at h2
    rw [if_neg (by rw [hcn]; exact hne), if_pos hcn] at h2
    cases h2
    exact ⟨c, h1, rfl, rfl⟩
  · rintro ⟨c, h1, rfl, rfl⟩
    refine ⟨c, h1, ?_⟩
    unfold createExt
    rw [if_neg (by rw [ho _ _ h1]; exact hne), if_pos (ho _ _ h1)]

/-- what loading without error says about `initial` and the manager -/
theorem created_manager {make : Str → Option β → Option β} {report : Bool} {src : List (Str × Option (ExtCfg β))} {m : ExtMgr β}
    (ho : OwnFolders src) (h : createExtensions make report src = .ok (m, false)) :
    (∃ c c', (nmInitial, some c) ∈ src ∧ c.extension.getD nmManager = nmManager ∧ (nmManager, some c') ∈ src ∧
      m.sort = c'.sort ∧ m.exclusion = c'.exclusion ∧ m.initial = (nmInitial, nmManager)) ∨
    ((∀ c, (nmInitial, some c) ∉ src) ∧ (∀ c, (nmManager, some c) ∉ src) ∧ m.sort = [] ∧ m.exclusion = [] ∧ m.initial = (nmManager, nmManager)) := by
  unfold createExtensions at h
  obtain ⟨l, hl, h⟩ := res_bind_eq_ok.1 h
  simp only at h
  cases hi : lastInitial l with
  | none =>
    rw [hi] at h
    simp only [Option.getD_none, Bool.false_or, Option.isSome_none, Bool.and_false] at h
    injection h with h
    have hm := congrArg Prod.fst h
    have hb := congrArg Prod.snd h
    simp only at hm hb
    subst hm
    refine .inr ⟨fun c hc => ?_, fun c hc => ?_, rfl, rfl, rfl⟩
    · exact lastInitial_none hi _ _ ((mem_initial ho hl _ _).2 ⟨rfl, c, hc, rfl⟩)
    · have hmem := (mem_manager ho hl _ _).2 ⟨c, hc, rfl, rfl⟩
      rw [List.any_eq_false] at hb
      exact hb _ (List.mem_filter.2 ⟨hmem, rfl⟩) (by simp [Ext.name])
  | some nx =>
    obtain ⟨n, x⟩ := nx
    rw [hi] at h
    simp only [Option.getD_some, Option.isSome_some, Bool.and_true] at h
    injection h with h
    have hm := congrArg Prod.fst h
    have hb := congrArg Prod.snd h
    simp only at hm hb
    generalize hp : (l.filter (fun e => !e.isInitial)).foldl (pickStep x) (none, [], false) = p at hm hb
    simp only [Bool.or_eq_false_iff] at hb
    obtain ⟨rfl, c, hc1, hc2⟩ := (mem_initial ho hl n x).1 (lastInitial_mem hi)
    cases hp1 : p.1 with
    | none => rw [hp1] at hb; cases hb.1.2
    | some k =>
      have hk := hp1
      rw [← hp] at hk
      rcases pick_none x _ _ k hk with h3 | ⟨h3, h4⟩
      · cases h3
      · obtain ⟨c', h5, h6, h7⟩ := (mem_manager ho hl _ _).1 (List.mem_filter.1 h3).1
        refine .inl ⟨c, c', hc1, hc2.symm.trans h4, h5, ?_, ?_, ?_⟩
        · rw [← hm, hp1]; exact h6
        · rw [← hm, hp1]; exact h7
        · rw [← hm, h4]

theorem entry_unique {V : Type} {src : List (Str × V)} (hn : (src.map (·.1)).Nodup) {k : Str} {v v' : V} (h : (k, v) ∈ src)
    (h' : (k, v') ∈ src) : v = v' := by
  have h1 := mget_of_mem (m := src) hn h
  rw [mget_of_mem (m := src) hn h'] at h1
  cases h1
  rfl

/-- **C179**: with folders that carry the names of their extensions, a configuration is taken exactly if both folders are there and
`initial` names the manager of the tool, or neither is there. -/
theorem C179_taken {make : Str → Option β → Option β} {src : List (Str × Option (ExtCfg β))} (ho : OwnFolders src)
    (hn : (src.map (·.1)).Nodup) :
    (∃ m, createExtensions make true src = .ok (m, false)) ↔
      (NamesManager src ∧ HasConfig src "NNNN-gocfl-extension-manager") ∨
      (¬ HasConfig src "initial" ∧ ¬ HasConfig src "NNNN-gocfl-extension-manager") := by
  constructor
  · rintro ⟨m, h⟩
    rcases created_manager ho h with ⟨c, c', h1, h2, h3, _⟩ | ⟨h1, h2, _⟩
    · refine .inl ⟨⟨c, h1, ?_⟩, c', h3⟩
      cases he : c.extension with
      | none => exact .inl rfl
      | some y =>
        rw [he] at h2
        exact .inr (congrArg some h2)
    · exact .inr ⟨fun ⟨c, hc⟩ => h1 c hc, fun ⟨c, hc⟩ => h2 c hc⟩
  · intro hcase
    obtain ⟨l, hl⟩ := scan_report (make := make) src
    unfold createExtensions
    refine Exists.imp (fun m h => res_bind_eq_ok.2 ⟨l, hl, h⟩) ?_
    simp only
    have hom : OnlyManagers (l.filter (fun e => !e.isInitial)) :=
      fun e he => made_onlyManagers (fun e he => ((scan_own ho hl).2 e he).1) e (List.mem_filter.1 he).1
    rcases hcase with ⟨⟨c, h1, h2⟩, c', h3⟩ | ⟨h1, h2⟩
    · have hx : c.extension.getD nmManager = nmManager := by rcases h2 with h2 | h2 <;> rw [h2] <;> rfl
      have hi : lastInitial l = some (nmInitial, nmManager) := by
        refine lastInitial_unique ((mem_initial ho hl _ _).2 ⟨rfl, c, h1, hx.symm⟩) ?_
        intro n' x' hm
        obtain ⟨g1, c2, g2, g3⟩ := (mem_initial ho hl _ _).1 hm
        have := entry_unique hn g2 h1
        cases this
        exact ⟨g1, g3.trans hx⟩
      rw [hi]
      simp only [Option.isSome_some, Bool.and_true]
      obtain ⟨p1, p2⟩ := pick_manager _ hom (none, [], false)
      have p2 := p2 (c'.sort, c'.exclusion) (fun so ex hm => by
        obtain ⟨c2, g1, g2, g3⟩ := (mem_manager ho hl so ex).1 (List.mem_filter.1 hm).1
        have := entry_unique hn g1 h3
        cases this
        exact ⟨g2, g3⟩) (.inr (List.mem_filter.2 ⟨(mem_manager ho hl _ _).2 ⟨c', h3, rfl, rfl⟩, rfl⟩)) (.inl rfl)
      rw [p2, p1]
      simp only [List.nil_append, Option.isNone_some, Bool.or_false, Bool.false_or]
      refine ⟨_, congrArg Except.ok (Prod.ext rfl ?_)⟩
      show List.any _ _ = false
      rw [List.any_eq_false]
      intro e he
      have := (List.mem_filter.1 he).2
      simpa using this
    · have hi : lastInitial l = none := by
        cases hi : lastInitial l with
        | none => rfl
        | some nx =>
          obtain ⟨_, c, hc, _⟩ := (mem_initial ho hl nx.1 nx.2).1 (lastInitial_mem hi)
          exact absurd ⟨c, hc⟩ h1
      rw [hi]
      simp only [Option.isSome_none, Bool.and_false, Bool.or_false, Bool.false_or]
      refine ⟨_, congrArg Except.ok (Prod.ext rfl ?_)⟩
      show List.any _ _ = false
      rw [List.any_eq_false]
      intro e he hcon
      obtain ⟨so, ex, rfl⟩ := hom e he (by simpa using hcon)
      obtain ⟨c, hc, _⟩ := (mem_manager ho hl so ex).1 (List.mem_filter.1 he).1
      exact h2 ⟨c, hc⟩

/-- **C179, rules**: the manager has the rules of its own folder. -/
theorem C179_rules {make : Str → Option β → Option β} {report : Bool} {src : List (Str × Option (ExtCfg β))} {m : ExtMgr β} {c : ExtCfg β}
    (ho : OwnFolders src) (hn : (src.map (·.1)).Nodup) (h : createExtensions make report src = .ok (m, false))
    (hc : ("NNNN-gocfl-extension-manager".toList, some c) ∈ src) : m.sort = c.sort ∧ m.exclusion = c.exclusion := by
  rcases created_manager ho h with ⟨_, c', _, _, h3, h4, h5, _⟩ | ⟨_, h2, _⟩
  · have := entry_unique hn h3 hc
    cases this
    exact ⟨h4, h5⟩
  · exact absurd hc (h2 c)

/-- **C179, stored**: the configuration of `initial` that is stored with a new object or storage root names the manager, so that other
programs find it. -/
theorem C179_stored {make : Str → Option β → Option β} {report : Bool} {src : List (Str × Option (ExtCfg β))} {m : ExtMgr β}
    (ho : OwnFolders src) (hn : (src.map (·.1)).Nodup) (hs : (src.map (·.1)).Pairwise (fun a b => strLe a b = true))
    (h : createExtensions make report src = .ok (m, false)) (folders : Bool) :
    ∃ c, mget (storeExts folders m) "initial".toList = some (some c) ∧ c.extension = some "NNNN-gocfl-extension-manager".toList := by
  have hg := (created_own ho hn hs h).1
  have hx : m.initial.2 = nmManager := by
    rcases created_manager ho h with ⟨_, _, _, _, _, _, _, h6⟩ | ⟨_, _, _, _, h6⟩ <;> rw [h6]
  have hmem : (nmInitial, (Ext.initial m.initial.1 m.initial.2 : Ext β).cfg) ∈ mgrFiles m := by
    unfold mgrFiles
    refine List.mem_append_left _ (List.mem_map.2 ⟨Ext.initial m.initial.1 m.initial.2, by simp, rfl⟩)
  have hperm := foldl_mset_perm (g := some) (mgrFiles m) (if folders then [(nmManager, none)] else []) (mgrFiles_nodup hg)
    (by cases folders <;> simp [mkeys])
  have hk : (mkeys (storeExts folders m)).Nodup := by
    have h1 := hperm.map Prod.fst
    refine h1.nodup_iff.2 ?_
    rw [List.map_append, List.map_map]
    refine List.nodup_append.2 ⟨mgrFiles_nodup hg, ?_, ?_⟩
    · refine List.Nodup.sublist (List.filter_sublist.map _) ?_
      cases folders <;> simp
    · intro a ha b hb hab
      obtain ⟨d, hd, rfl⟩ := List.mem_map.1 hb
      have := (List.mem_filter.1 hd).2
      rw [decide_eq_true_eq] at this
      exact this (hab ▸ ha)
  refine ⟨_, mget_of_mem hk (hperm.mem_iff.2 (List.mem_append_left _ (List.mem_map.2 ⟨_, hmem, rfl⟩))), ?_⟩
  show some m.initial.2 = _
  rw [hx]
  rfl

/-- the default configuration of the tool is taken, one whose `initial` names another manager is not -/
example : (∃ m, createExtensions sciMake true defSrc = .ok (m, false)) ∧
    ¬ ∃ m, createExtensions sciMake true ([(nmManager, some { name := nmManager }),
      (nmInitial, some { name := nmInitial, extension := some "other".toList })] : List (Str × Option (ExtCfg Layout))) = .ok (m, false) := by
  have ho : ∀ src : List (Str × Option (ExtCfg Layout)), (∀ e ∈ src, e.2.all (fun c => decide (c.name = e.1)) = true) → OwnFolders src :=
    fun src h f c hc => by simpa using h _ hc
  constructor
  · refine (C179_taken (ho _ (by decide)) (by decide)).2 (.inl ⟨⟨{ name := nmInitial, extension := some nmManager }, ?_, .inr rfl⟩,
      { name := nmManager, sort := sciSort, exclusion := sciExcl }, ?_⟩) <;> decide
  · rw [C179_taken (ho _ (by decide)) (by decide)]
    rintro (⟨⟨c, hc, h1⟩, _⟩ | ⟨h1, _⟩)
    · simp only [List.mem_cons, List.not_mem_nil, or_false] at hc
      rcases hc with hc | hc
      · exact absurd (congrArg Prod.fst hc) (by show "initial".toList ≠ nmManager; decide)
      · have hc := congrArg Prod.snd hc
        simp only [Option.some.injEq] at hc
        subst hc
        exact absurd h1 (by decide)
    · exact h1 ⟨_, List.mem_cons_of_mem _ List.mem_cons_self⟩

end Gocfl
