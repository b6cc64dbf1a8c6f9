import Verif.Props.Display

/-!
# C127: files of extensions in the web display
-/

namespace Gocfl

/-- The path is that of the folder of the extension, or in it. -/
def InExtFolder (ext p : Str) : Prop :=
  p = "extensions/".toList ++ ext ∨ ∃ rest, p = "extensions/".toList ++ ext ++ '/' :: rest

/-- The bytes are those of a file in the folder of the extension, of an object of the storage root. -/
def FromExtFolder {V : Type} (E : DispEnv V) (fs : FS) (ext : Str) (b : Bytes) : Prop :=
  ∃ f o p, E.openFolder fs f = .ok o ∧ InExtFolder ext p ∧ mget (subFS fs o.folder) p = some b

/-- **C127, in full**: for all requests, also at the same time. -/
def C127_full : Prop :=
  ∀ (V : Type) (E : DispEnv V) (fs : FS) (sched : List Nat) (rs : List DispReq) (id ext path : Str) (b : Bytes),
    (DispReq.extFile id ext path, DispPc.done (.bytes b)) ∈
      interleave E fs sched DispSt.fresh (rs.map (fun r => (r, .start))) → FromExtFolder E fs ext b

/-- The path does not climb above where it starts. -/
def Stays (path : Str) : Prop := walk 0 (splitOn '/' path) ≠ none

/-- the path of the file lies in the folder of the extension -/
theorem extFilePath_in {ext path : Str} (he : ValidComp ext) (hs : Stays path) : InExtFolder ext (extFilePath ext path) := by
  unfold Stays at hs
  obtain ⟨k, hk⟩ := Option.ne_none_iff_exists'.1 hs
  have hvx : ValidComp "extensions".toList := by unfold ValidComp; decide
  obtain ⟨res, _, h2, h3⟩ := cleanGo_walk (cs := splitOn '/' path) (fun c hc => splitOn_noSep_mem hc) (acc := [])
    (base := [ext, "extensions".toList]) (by simp) hk
  have hj : extFilePath ext path = joinWith '/' ("extensions".toList :: ext :: res) := by
    have e1 : extFilePath ext path = pathClean ("extensions".toList ++ '/' :: (ext ++ '/' :: path)) := by
      unfold extFilePath
      rfl
    have e2 : cleanGo false [] ("extensions".toList :: splitOn '/' (ext ++ '/' :: path)) = "extensions".toList :: ext :: res := by
      rw [splitOn_append, splitOn_noSep he.2.2.2]
      have := cleanGo_append (rooted := false) (cs := ["extensions".toList, ext]) (ds := splitOn '/' path) (by
        intro c hc
        rcases List.mem_cons.1 hc with rfl | hc
        · exact hvx
        · rw [List.mem_singleton.1 hc]; exact he) []
      rw [show "extensions".toList :: ([ext] ++ splitOn '/' path) = ["extensions".toList, ext] ++ splitOn '/' path from rfl, this]
      exact h3 false
    rw [e1, pathClean_cons hvx e2 (by
      intro x hx
      rcases List.mem_cons.1 hx with rfl | hx
      · exact hvx.1
      · rcases List.mem_cons.1 hx with rfl | hx
        · exact he.1
        · exact (h2 x hx).1)]
    rfl
  rw [hj]
  cases res with
  | nil => exact Or.inl (by simp [joinWith])
  | cons c res => exact Or.inr ⟨joinWith '/' (c :: res), by simp [joinWith]⟩

/-- what a request for a file of an extension may be about to do -/
def ExtPc {V : Type} (E : DispEnv V) (fs : FS) (t : DispReq × DispPc) : Prop :=
  ∀ id ext path, t.1 = .extFile id ext path →
    (∀ p, t.2 = .openFile p → p = extFilePath ext path) ∧
    ∀ b, t.2 = .done (.bytes b) →
      ∃ f o, E.openFolder fs f = .ok o ∧ mget (subFS fs o.folder) (extFilePath ext path) = some b

/-- the object that is kept was opened -/
def KeptOpened {V : Type} (E : DispEnv V) (fs : FS) (s : DispSt V) : Prop :=
  ∀ o, s.object = some o → ∃ f, E.openFolder fs f = .ok o

theorem loadReq_opened {V : Type} {E : DispEnv V} {fs : FS} {r : DispReq} {o : OpenObj} (h : loadReq E fs r = .ok o) :
    ∃ f, E.openFolder fs f = .ok o := by
  have key : ∀ id, E.openId fs id = .ok o → ∃ f, E.openFolder fs f = .ok o := by
    intro id h
    unfold DispEnv.openId at h
    split at h
    · cases h
    · exact ⟨_, h⟩
  cases r with
  | download id c => exact key id h
  | version id v => exact key id h
  | manifest id => exact key id h
  | extFile id e p => exact key id h
  | folder p => exact ⟨_, h⟩

theorem dispStep_opened {V : Type} {E : DispEnv V} {fs : FS} {r : DispReq} {s : DispSt V} {pc : DispPc}
    (hk : KeptOpened E fs s) : KeptOpened E fs (dispStep E fs r s pc).1 := by
  cases pc with
  | start => exact hk
  | load =>
    simp only [dispStep]
    split
    · rename_i o h
      intro o' ho'
      cases ho'
      exact loadReq_opened h
    · intro o' ho'; cases ho'
    · exact hk
  | getMeta =>
    simp only [dispStep]
    split
    · exact hk
    · split <;> exact hk
  | use => exact hk
  | openFile p =>
    simp only [dispStep]
    split
    · exact hk
    · split <;> exact hk
  | showPage files =>
    simp only [dispStep]
    split <;> exact hk
  | done a => exact hk

theorem dispStep_ext {V : Type} {E : DispEnv V} {fs : FS} {r : DispReq} {s : DispSt V} {pc : DispPc}
    (hk : KeptOpened E fs s) (ht : ExtPc E fs (r, pc)) : ExtPc E fs (r, (dispStep E fs r s pc).2) := by
  rintro id ext path hr
  simp only at hr
  subst hr
  obtain ⟨h1, h2⟩ := ht id ext path rfl
  cases pc with
  | start =>
    simp only [dispStep]
    constructor
    · intro p hp
      unfold startReq at hp
      split at hp
      · split at hp
        · split at hp <;> cases hp
        · cases hp
      · cases hp
    · intro b hb
      unfold startReq at hb
      split at hb
      · split at hb
        · split at hb <;> cases hb
        · cases hb
      · cases hb
  | load =>
    simp only [dispStep]
    cases loadReq E fs (.extFile id ext path) with
    | ok o => exact ⟨fun p hp => (by cases hp), fun b hb => by cases hb⟩
    | error e => cases e <;> exact ⟨fun p hp => (by cases hp), fun b hb => by cases hb⟩
  | getMeta =>
    simp only [dispStep]
    cases s.object with
    | none => exact ⟨fun p hp => (by cases hp), fun b hb => by cases hb⟩
    | some o =>
      cases hm : E.metaOf fs o with
      | ok m => simp only [hm]; exact ⟨fun p hp => (by cases hp), fun b hb => by cases hb⟩
      | error e => cases e <;> simp only [hm] <;> exact ⟨fun p hp => (by cases hp), fun b hb => by cases hb⟩
  | use =>
    simp only [dispStep, useMeta]
    refine ⟨fun p hp => ?_, fun b hb => by cases hb⟩
    injection hp with hp
    exact hp.symm
  | openFile p =>
    have hp := h1 p rfl
    subst hp
    simp only [dispStep]
    cases ho : s.object with
    | none => exact ⟨fun p hp => (by cases hp), fun b hb => by cases hb⟩
    | some o =>
      cases hb : mget (subFS fs o.folder) (extFilePath ext path) with
      | none => simp only [hb]; exact ⟨fun p hp => (by cases hp), fun b hb => by cases hb⟩
      | some b =>
        simp only [hb]
        refine ⟨fun p hp => (by cases hp), fun b' hb' => ?_⟩
        cases hb'
        obtain ⟨f, hf⟩ := hk o ho
        exact ⟨f, o, hf, hb⟩
  | showPage files =>
    simp only [dispStep]
    cases s.object with
    | none => exact ⟨fun p hp => (by cases hp), fun b hb => by cases hb⟩
    | some o => exact ⟨fun p hp => (by cases hp), fun b hb => by cases hb⟩
  | done a => exact ⟨h1, h2⟩

theorem interleave_ext {V : Type} {E : DispEnv V} {fs : FS} (sched : List Nat) {s : DispSt V} {ts : List (DispReq × DispPc)}
    (hk : KeptOpened E fs s) (ht : ∀ t ∈ ts, ExtPc E fs t) : ∀ t ∈ interleave E fs sched s ts, ExtPc E fs t := by
  induction sched generalizing s ts with
  | nil => exact ht
  | cons k sched ih =>
    rw [interleave]
    cases hts : ts[k]? with
    | none => exact ih hk ht
    | some t =>
      obtain ⟨r, pc⟩ := t
      refine ih (dispStep_opened hk) ?_
      intro t hmem
      rcases List.mem_or_eq_of_mem_set hmem with h | rfl
      · exact ht t h
      · exact dispStep_ext hk (ht _ (List.mem_of_getElem? hts))

/-- **C127.**  Requests for files of an extension, at any time, get files in the folder of the extension of an object, if the
extension is an ordinary name and the path does not climb. -/
theorem C127_extension_partial {V : Type} (E : DispEnv V) (fs : FS) (sched : List Nat) (rs : List DispReq) (id ext path : Str)
    (he : ValidComp ext) (hs : Stays path) (b : Bytes)
    (h : (DispReq.extFile id ext path, DispPc.done (.bytes b)) ∈
      interleave E fs sched DispSt.fresh (rs.map (fun r => (r, .start)))) : FromExtFolder E fs ext b := by
  have hall := interleave_ext (E := E) (fs := fs) sched (s := DispSt.fresh) (ts := rs.map (fun r => (r, .start)))
    (by intro o ho; cases ho) (by
      intro t ht
      obtain ⟨r, _, rfl⟩ := List.mem_map.1 ht
      exact fun _ _ _ _ => ⟨fun p hp => (by cases hp), fun b hb => by cases hb⟩)
  obtain ⟨f, o, h1, h2⟩ := (hall _ h id ext path rfl).2 b rfl
  exact ⟨f, o, _, h1, extFilePath_in he hs, h2⟩

/-- One after the other, they get those of the object asked for. -/
theorem C127_sequential_partial {V : Type} (E : DispEnv V) (fs : FS) (hp : InPlace E fs) (hn : NoMetaPanic E) (rs : List DispReq)
    (i : Nat) (id ext path : Str) (he : ValidComp ext) (hs : Stays path) (b : Bytes) (hr : rs[i]? = some (.extFile id ext path))
    (ha : (serveAll E (rs.map (fun r => (fs, r))) DispSt.fresh)[i]? = some (.done (.bytes b))) :
    ∃ o p, E.openId fs id = .ok o ∧ InExtFolder ext p ∧ mget (subFS fs o.folder) p = some b := by
  rw [C125_kept_partial E fs hp hn rs, List.map_map, List.getElem?_map, hr] at ha
  simp only [Option.map_some, Function.comp, Option.some.injEq] at ha
  rw [serve_fresh hp hn] at ha
  injection ha with ha
  unfold freshAns at ha
  cases hl : loadReq E fs (.extFile id ext path) with
  | error e => rw [hl] at ha; cases e <;> cases ha
  | ok o =>
    rw [hl] at ha
    cases hm : E.metaOf fs o with
    | error e => simp only [hm] at ha; cases e <;> cases ha
    | ok m =>
      simp only [hm, useAns, useMeta] at ha
      cases hb : mget (subFS fs o.folder) (extFilePath ext path) with
      | none => simp only [hb] at ha; cases ha
      | some b' =>
        simp only [hb] at ha
        cases ha
        exact ⟨o, _, hl, extFilePath_in he hs, hb⟩

/-- the two objects, `a` with a file of an extension -/
def dispFSx : FS := ("a/extensions/x/y".toList, [5]) :: dispFS

set_option maxRecDepth 20000 in
theorem dispFSx_inPlace : InPlace dispEnv dispFSx := inPlace_of rfl (by decide)

set_option maxRecDepth 20000 in
example : FromExtFolder dispEnv dispFSx "x".toList [5] :=
  C127_extension_partial dispEnv dispFSx [0, 1, 1, 0, 0, 1, 0, 1, 0]
    [.extFile "a".toList "x".toList "/w//../y".toList, .extFile "a".toList "x".toList "/y".toList] "a".toList "x".toList
    "/w//../y".toList (by unfold ValidComp; decide) (by unfold Stays; decide) [5] (by
      have : interleave dispEnv dispFSx [0, 1, 1, 0, 0, 1, 0, 1, 0] DispSt.fresh
          ([.extFile "a".toList "x".toList "/w//../y".toList, .extFile "a".toList "x".toList "/y".toList].map
            (fun r => (r, .start))) =
        [(.extFile "a".toList "x".toList "/w//../y".toList, .done (.bytes [5])),
         (.extFile "a".toList "x".toList "/y".toList, .openFile "extensions/x/y".toList)] := by rfl
      rw [this]
      exact List.mem_cons_self)

set_option maxRecDepth 20000 in
example : ∃ o p, dispEnv.openId dispFSx "a".toList = .ok o ∧ InExtFolder "x".toList p ∧
    mget (subFS dispFSx o.folder) p = some [5] :=
  C127_sequential_partial dispEnv dispFSx dispFSx_inPlace dispEnv_noPanic
    [.manifest "b".toList, .extFile "a".toList "x".toList "/y".toList] 1 _ _ "/y".toList (by unfold ValidComp; decide)
    (by unfold Stays; decide) [5] rfl (by rfl)

set_option maxRecDepth 20000 in
/-- **C127 does not hold in full**: with `..` other files of the object are given away. -/
theorem C127_full_fails : ¬ C127_full := by
  intro h
  obtain ⟨f, o, p, _, h2, h3⟩ := h Unit dispEnv dispFS [0, 0, 0, 0, 0]
    [.extFile "a".toList "..".toList "/inventory.json".toList] "a".toList "..".toList "/inventory.json".toList [9] (by
      have : interleave dispEnv dispFS [0, 0, 0, 0, 0] DispSt.fresh
          ([.extFile "a".toList "..".toList "/inventory.json".toList].map (fun r => (r, .start))) =
        [(.extFile "a".toList "..".toList "/inventory.json".toList, .done (.bytes [9]))] := by rfl
      rw [this]
      exact List.mem_singleton.2 rfl)
  rw [mget_subFS] at h3
  have hk : under o.folder p ∈ mkeys dispFS := mem_mkeys_of_mem (mem_of_mget h3)
  have hdots : ∃ x y, under o.folder p = x ++ "..".toList ++ y := by
    rcases h2 with rfl | ⟨rest, rfl⟩
    · exact ⟨o.folder ++ "/extensions/".toList, [], by simp [under]⟩
    · exact ⟨o.folder ++ "/extensions/".toList, '/' :: rest, by simp [under]⟩
  obtain ⟨x, y, hxy⟩ := hdots
  rw [hxy] at hk
  have hno : ∀ k ∈ mkeys dispFS, ¬ "..".toList <:+: k := by decide
  exact hno _ hk ⟨x, y, rfl⟩

end Gocfl
