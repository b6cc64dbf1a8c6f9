import Verif.Model.Fullpath
import Verif.Props.Settings

/-!
# C172: paths on the command line; C146 with them
-/

namespace Gocfl

/-! ## What is specified: walking along a path in a tree of folders without links -/

/-- Where a walk ends that starts in the folder `pos` (the names from the root down) and goes along the names of a path:
nothing and `.` stay, `..` goes to the parent (and stays in the root), any other name goes down. -/
def goTo : List Str → List Str → List Str
  | pos, [] => pos
  | pos, c :: cs =>
    if c = [] ∨ c = ".".toList then goTo pos cs
    else if c = "..".toList then goTo pos.dropLast cs
    else goTo (pos ++ [c]) cs

/-- The folder or file a path means for somebody working in the folder `cwd`. -/
def placeOf (cwd path : Str) : List Str :=
  if path.head? = some '/' then goTo [] (splitOn '/' path) else goTo (goTo [] (splitOn '/' cwd)) (splitOn '/' path)

/-- The only absolute name without detours of a place. -/
def absName (place : List Str) : Str := '/' :: joinWith '/' place

theorem goTo_append (pos cs ds : List Str) : goTo pos (cs ++ ds) = goTo (goTo pos cs) ds := by
  induction cs generalizing pos with
  | nil => rfl
  | cons c cs ih =>
    simp only [List.cons_append, goTo]
    split
    · exact ih _
    · split <;> exact ih _

theorem goTo_valid {pos cs : List Str} (hp : ∀ c ∈ pos, ValidComp c) (hs : ∀ c ∈ cs, '/' ∉ c) :
    ∀ c ∈ goTo pos cs, ValidComp c := by
  induction cs generalizing pos with
  | nil => exact hp
  | cons c cs ih =>
    have hs' : ∀ c ∈ cs, '/' ∉ c := fun d hd => hs d (List.mem_cons_of_mem _ hd)
    simp only [goTo]
    split
    · exact ih hp hs'
    · rename_i h1
      split
      · exact ih (fun d hd => hp d (List.dropLast_subset _ hd)) hs'
      · rename_i h2
        refine ih (fun d hd => ?_) hs'
        rcases List.mem_append.1 hd with hd | hd
        · exact hp d hd
        · rw [List.mem_singleton] at hd
          rw [hd]
          exact ⟨fun e => h1 (.inl e), fun e => h1 (.inr e), h2, hs c (List.mem_cons_self)⟩

theorem goTo_names {cs : List Str} (h : ∀ c ∈ cs, ValidComp c) (pos : List Str) : goTo pos cs = pos ++ cs := by
  induction cs generalizing pos with
  | nil => simp [goTo]
  | cons c cs ih =>
    obtain ⟨h1, h2, h3, _⟩ := h c List.mem_cons_self
    rw [goTo, if_neg (by simp only [not_or]; exact ⟨h1, h2⟩), if_neg h3, ih (fun d hd => h d (List.mem_cons_of_mem _ hd))]
    simp

theorem cleanGo_goTo {cs pos : List Str} (hp : ∀ c ∈ pos, ValidComp c) (hs : ∀ c ∈ cs, '/' ∉ c) :
    cleanGo true pos.reverse cs = goTo pos cs := by
  induction cs generalizing pos with
  | nil => simp [cleanGo, goTo]
  | cons c cs ih =>
    have hs' : ∀ c ∈ cs, '/' ∉ c := fun d hd => hs d (List.mem_cons_of_mem _ hd)
    rw [cleanGo, goTo]
    split
    · exact ih hp hs'
    · rename_i h1
      split
      · have e : popComp true pos.reverse = pos.dropLast.reverse := by
          rcases List.eq_nil_or_concat pos with rfl | ⟨l, b, rfl⟩
          · rfl
          · rw [List.concat_eq_append, List.reverse_append, List.dropLast_concat]
            have hb : b ≠ "..".toList := (hp b (by simp)).2.2.1
            simp only [List.reverse_cons, List.reverse_nil, List.nil_append, List.singleton_append, popComp]
            rw [if_neg hb]
        rw [e]
        exact ih (fun d hd => hp d (List.dropLast_subset _ hd)) hs'
      · rename_i h2
        have e : c :: pos.reverse = (pos ++ [c]).reverse := by simp
        rw [e]
        refine ih (fun d hd => ?_) hs'
        rcases List.mem_append.1 hd with hd | hd
        · exact hp d hd
        · rw [List.mem_singleton] at hd
          rw [hd]
          exact ⟨fun e => h1 (.inl e), fun e => h1 (.inr e), h2, hs c List.mem_cons_self⟩

/-- Cleaning a relative path does not change where it leads, from whatever folder. -/
theorem goTo_cleanGo {cs acc : List Str} (ha : ∀ c ∈ acc, ValidComp c ∨ c = "..".toList) (hs : ∀ c ∈ cs, '/' ∉ c)
    (pos : List Str) : goTo pos (cleanGo false acc cs) = goTo (goTo pos acc.reverse) cs := by
  induction cs generalizing acc with
  | nil => rfl
  | cons c cs ih =>
    have hs' : ∀ c ∈ cs, '/' ∉ c := fun d hd => hs d (List.mem_cons_of_mem _ hd)
    rw [cleanGo, goTo]
    split
    · exact ih ha hs'
    · rename_i h1
      split
      · rename_i h2
        cases acc with
        | nil =>
          have : popComp false [] = ["..".toList] := rfl
          rw [this, ih (by simp) hs']
          rfl
        | cons a acc =>
          have ha' : ∀ c ∈ acc, ValidComp c ∨ c = "..".toList := fun d hd => ha d (List.mem_cons_of_mem _ hd)
          rw [popComp]
          split
          · rename_i h3
            rw [ih (by intro d hd; rcases List.mem_cons.1 hd with rfl | hd; exact .inr rfl; exact ha d hd) hs']
            congr 1
            rw [List.reverse_cons, goTo_append]
            rfl
          · rename_i h3
            rw [ih ha' hs']
            have hv : ValidComp a := (ha a List.mem_cons_self).resolve_right h3
            rw [List.reverse_cons, goTo_append, goTo_names (cs := [a]) (by simpa using hv), List.dropLast_concat]
      · rename_i h2
        have hv : ValidComp c := ⟨fun e => h1 (.inl e), fun e => h1 (.inr e), h2, hs c List.mem_cons_self⟩
        rw [ih (by intro d hd; rcases List.mem_cons.1 hd with rfl | hd; exact .inl hv; exact ha d hd) hs', List.reverse_cons,
          goTo_append, goTo_names (cs := [c]) (by simpa using hv)]

theorem pathClean_rooted (r : Str) : pathClean ('/' :: r) = absName (goTo [] (splitOn '/' ('/' :: r))) := by
  have := cleanGo_goTo (pos := []) (cs := splitOn '/' ('/' :: r)) (by simp) (fun c hc => splitOn_noSep_mem hc)
  simp only [List.reverse_nil] at this
  simp only [pathClean, absName, this]

/-- a relative path does not clean to an absolute one -/
theorem pathClean_relative {p : Str} (h : ∀ r, p ≠ '/' :: r) :
    (∀ r, pathClean p ≠ '/' :: r) ∧ ∀ pos, goTo pos (splitOn '/' (pathClean p)) = goTo pos (splitOn '/' p) := by
  have hs : ∀ c ∈ splitOn '/' p, '/' ∉ c := fun c hc => splitOn_noSep_mem hc
  have hc := cleanGo_comps (rooted := false) hs (acc := []) (by simp)
  have hg := fun pos => goTo_cleanGo (cs := splitOn '/' p) (acc := []) (by simp) hs pos
  rw [pathClean_rel h]
  cases hl : cleanGo false [] (splitOn '/' p) with
  | nil =>
    rw [hl] at hg
    refine ⟨fun r e => ?_, fun pos => ?_⟩
    · simp only [joinWith] at e
      have := congrArg List.head? e
      simp at this
    · simp only [joinWith]
      have e : splitOn '/' ".".toList = [".".toList] := by decide
      rw [e]
      have := hg pos
      simp only [goTo, List.reverse_nil] at this
      rw [← this]
      rfl
  | cons x xs =>
    rw [hl] at hg hc
    have hx : ∀ c ∈ x :: xs, '/' ∉ c ∧ c ≠ [] := by
      intro c hc'
      rcases hc c hc' with hv | rfl
      · exact ⟨hv.2.2.2, hv.1⟩
      · decide
    have hj := splitOn_joinWith_noSep (sep := '/') (cs := x :: xs) (by simp) (fun c hc' => (hx c hc').1)
    have hne := joinWith_ne_nil (sep := '/') (cs := x :: xs) (by simp) (fun c hc' => (hx c hc').2)
    cases he : joinWith '/' (x :: xs) with
    | nil => exact absurd he hne
    | cons y ys =>
      refine ⟨fun r e => ?_, fun pos => ?_⟩
      · simp only at e
        rw [he, e] at hj
        rw [show splitOn '/' ('/' :: r) = [] :: splitOn '/' r by simp [splitOn]] at hj
        simp only [List.cons.injEq] at hj
        exact (hx x (by simp)).2 hj.1.symm
      · simp only
        rw [he] at hj
        rw [hj]
        exact hg pos

/-- C172: A path argument is turned into the absolute name of the place it means for somebody in the current folder. -/
theorem C172_place {cwd : Str} (hc : ∃ r, cwd = '/' :: r) (p : Str) : fullpath cwd p = absName (placeOf cwd p) := by
  obtain ⟨d, rfl⟩ := hc
  unfold fullpath placeOf
  by_cases hp : p.head? = some '/'
  · rw [if_pos hp]
    obtain ⟨r, rfl⟩ : ∃ r, p = '/' :: r := by
      cases p with
      | nil => cases hp
      | cons x r => exact ⟨r, by rw [List.head?_cons, Option.some.injEq] at hp; rw [hp]⟩
    rw [pathClean_rooted]
    rfl
  · rw [if_neg hp]
    obtain ⟨h1, h2⟩ := pathClean_relative (p := p) (fun r e => hp (by rw [e]; rfl))
    split
    · rename_i r e; exact absurd e (h1 r)
    · have hne := pathClean_ne_nil p
      simp only [pathJoin, joinWith]
      rw [List.cons_append, pathClean_rooted, ← List.cons_append, splitOn_append, goTo_append, h2]

/-- the names of a place have no slashes and no detours -/
theorem placeOf_valid (cwd p : Str) : ∀ c ∈ placeOf cwd p, ValidComp c := by
  unfold placeOf
  split
  · exact goTo_valid (by simp) (fun c hc => splitOn_noSep_mem hc)
  · exact goTo_valid (goTo_valid (by simp) (fun c hc => splitOn_noSep_mem hc)) (fun c hc => splitOn_noSep_mem hc)

theorem placeOf_absName {l : List Str} (h : ∀ c ∈ l, ValidComp c) (cwd : Str) : placeOf cwd (absName l) = l := by
  unfold placeOf absName
  rw [if_pos (by rfl)]
  have e : splitOn '/' ('/' :: joinWith '/' l) = [] :: splitOn '/' (joinWith '/' l) := by simp [splitOn]
  rw [e]
  cases l with
  | nil => decide
  | cons x xs =>
    rw [splitOn_joinWith_noSep (by simp) (fun c hc => (h c hc).2.2.2)]
    simp only [goTo, true_or, if_true]
    exact goTo_names h []

/-- C172: Two arguments, given in whatever folders, become the same path exactly if they mean the same place; and a path that
came out stays the same, in whatever folder it is given again. -/
theorem C172_same {cwd cwd' : Str} (hc : ∃ r, cwd = '/' :: r) (hc' : ∃ r, cwd' = '/' :: r) (p p' : Str) :
    (fullpath cwd p = fullpath cwd' p' ↔ placeOf cwd p = placeOf cwd' p') ∧
    fullpath cwd' (fullpath cwd p) = fullpath cwd p := by
  rw [C172_place hc, C172_place hc', C172_place hc', placeOf_absName (placeOf_valid _ _)]
  refine ⟨⟨fun h => ?_, fun h => by rw [h]⟩, rfl⟩
  have := congrArg (placeOf []) h
  rwa [placeOf_absName (placeOf_valid _ _), placeOf_absName (placeOf_valid _ _)] at this

/-- `cd /data/in; gocfl validate ../archive//root/./` works on `/data/archive/root`, as does the absolute name from anywhere. -/
example : fullpath "/data/in".toList "../archive//root/./".toList = "/data/archive/root".toList ∧
    fullpath "/".toList "../../x".toList = "/x".toList ∧ fullpath "/data".toList [] = "/data".toList := by decide

example : fullpath "/tmp".toList (fullpath "/data/in".toList "../archive//root/./".toList) = "/data/archive/root".toList :=
  (C172_same ⟨_, rfl⟩ ⟨_, rfl⟩ _ []).2.trans (by decide)

/-! ## C146: a storage root at an S3 address is reached by every command -/

/-- C146 in full -/
def C146_full : Prop :=
  ∀ (known : Str → Bool) (c : Command) (file : ConfFile) (g : Given) (k : Conf) (isS3 : Str → Bool) (cwd arg : Str),
    (∃ r, cwd = '/' :: r) → settle known c file g = .ok k → k.str .s3Endpoint ≠ [] → isS3 arg = true → ".zip".toList.isSuffixOf arg = false →
    reach isS3 c k cwd arg = .s3

/-- C146: what a command opens.  Only `init` and `create` can reach S3 at all, and these only if the absolute path that was
made of the argument is an S3 address. -/
theorem C146_reached_partial (isS3 : Str → Bool) (c : Command) (k : Conf) (cwd arg : Str) :
    reach isS3 c k cwd arg = .s3 ↔ (c = .init ∨ c = .create) ∧ k.str .s3Endpoint ≠ [] ∧ isS3 (fullpath cwd arg) = true ∧
      ".zip".toList.isSuffixOf (fullpath cwd arg) = false := by
  have hs : (factoryArgs c k).s3 ≠ [] ↔ (c = .init ∨ c = .create) ∧ k.str .s3Endpoint ≠ [] := by
    cases c <;> simp [factoryArgs]
  unfold reach openAs
  by_cases hz : ".zip".toList.isSuffixOf (fullpath cwd arg) = true
  · rw [if_pos hz]
    exact ⟨nofun, fun h => absurd (hz.symm.trans h.2.2.2) (by decide)⟩
  · rw [if_neg hz]
    rw [Bool.not_eq_true] at hz
    by_cases h : (factoryArgs c k).s3 ≠ [] ∧ isS3 (fullpath cwd arg) = true
    · rw [if_pos h]
      exact ⟨fun _ => ⟨(hs.1 h.1).1, (hs.1 h.1).2, h.2, hz⟩, fun _ => rfl⟩
    · rw [if_neg h]
      exact ⟨nofun, fun g => absurd ⟨hs.2 ⟨g.1, g.2.1⟩, g.2.2.1⟩ h⟩

/-- C146 is violated by every command: if S3 addresses do not begin with a slash, none is ever reached, since the argument
has become the name of a file in the current folder. -/
theorem C146_full_fails_always {isS3 : Str → Bool} (ha : ∀ r, isS3 ('/' :: r) = false) (c : Command) (k : Conf) {cwd : Str}
    (hc : ∃ r, cwd = '/' :: r) (arg : Str) : reach isS3 c k cwd arg ≠ .s3 := by
  intro h
  have := ((C146_reached_partial isS3 c k cwd arg).1 h).2.2.1
  rw [C172_place hc, absName, ha] at this
  exact Bool.false_ne_true this

/-- C146 is violated: `gocfl init arn:aws:s3:::b` makes a folder of that name. -/
theorem C146_full_fails : ¬ C146_full := by
  intro h
  have h := h exAlgs .init {} { str := [("s3-endpoint".toList, "s3.example.org".toList), ("digest".toList, "sha512".toList)] } _
    (fun a => "arn:".toList.isPrefixOf a) "/data".toList "arn:aws:s3:::b".toList ⟨_, rfl⟩ rfl (by decide) (by decide) (by decide)
  exact C146_full_fails_always (fun r => by simp [List.isPrefixOf]) _ _ ⟨_, rfl⟩ _ h

example : fullpath "/data".toList "arn:aws:s3:::b".toList = "/data/arn:aws:s3:::b".toList := by decide

/-- An address that names a folder of the disk as well would be reached. -/
example : reach (fun a => "b".toList.isSuffixOf a) .init (⟨fun s => if s = .s3Endpoint then "e".toList else [], fun _ => false, [], [], []⟩ : Conf)
    "/data".toList "x/b".toList = .s3 :=
  (C146_reached_partial _ _ _ _ _).2 ⟨.inl rfl, by decide, by decide, by decide⟩

end Gocfl
