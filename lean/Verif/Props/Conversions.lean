import Verif.Model.Conversions

/-!
# C168, C169: the conversion programs

Which of the configured programs is taken for a file, and what it is called with.
-/

namespace Gocfl

/-! ## Specification -/

/-- the function named `n` of the configuration is for format `p` -/
def ForFormat (conf : AMap Str FnConf) (n : Str) (c : FnConf) (p : Str) : Prop :=
  (n, c) ∈ conf ∧ ∃ q ∈ c.pronoms, trimSpace q = p

/-- the function named `n` of the configuration is for media type `m` -/
def ForMedia (w : ConvWorld) (conf : AMap Str FnConf) (n : Str) (c : FnConf) (m : Str) : Prop :=
  (n, c) ∈ conf ∧ ∃ re ∈ c.mime, w.isMatch re m = true

/-- `f` is what the configuration `c` says: its id, and its command as the words of a command line -/
def MadeOf (w : ConvWorld) (c : FnConf) (f : ConvFn) : Prop :=
  f.id = c.id ∧ w.split c.command = some (f.command :: f.args)

/-- a configured migration that can be used -/
def UsableMig (w : ConvWorld) (c : FnConf) : Prop :=
  (∃ cmd args, w.split c.command = some (cmd :: args)) ∧ w.compiles c.regexp = true ∧
  c.strategy ∈ ["replace".toList, "add".toList, "folder".toList]

/-! ## Lemmas -/

theorem collectFns_ok {one : FnConf → Res ConvFn} {conf : AMap Str FnConf} {fns : AMap Str ConvFn}
    (h : collectFns one conf = .ok fns) :
    (∀ n f, (n, f) ∈ fns → ∃ c, (n, c) ∈ conf ∧ one c = .ok f) ∧ (∀ n c, (n, c) ∈ conf → ∃ f, (n, f) ∈ fns ∧ one c = .ok f) := by
  induction conf generalizing fns with
  | nil =>
    cases h
    exact ⟨fun _ _ h => (nomatch h), fun _ _ h => (nomatch h)⟩
  | cons e rest ih =>
    obtain ⟨n, c⟩ := e
    unfold collectFns at h
    obtain ⟨f, h1, h⟩ := res_bind_eq_ok.1 h
    obtain ⟨fs, h2, h⟩ := res_bind_eq_ok.1 h
    cases h
    obtain ⟨i1, i2⟩ := ih h2
    refine ⟨fun m g hm => ?_, fun m d hm => ?_⟩
    · rcases List.mem_cons.1 hm with hm | hm
      · cases hm; exact ⟨c, List.mem_cons_self, h1⟩
      · obtain ⟨d, d1, d2⟩ := i1 m g hm
        exact ⟨d, List.mem_cons_of_mem _ d1, d2⟩
    · rcases List.mem_cons.1 hm with hm | hm
      · cases hm; exact ⟨f, List.mem_cons_self, h1⟩
      · obtain ⟨g, d1, d2⟩ := i2 m d hm
        exact ⟨g, List.mem_cons_of_mem _ d1, d2⟩

theorem collectFns_accepts {one : FnConf → Res ConvFn} {conf : AMap Str FnConf} :
    (∃ fns, collectFns one conf = .ok fns) ↔ ∀ n c, (n, c) ∈ conf → ∃ f, one c = .ok f := by
  constructor
  · rintro ⟨fns, h⟩ n c hc
    obtain ⟨f, _, h⟩ := (collectFns_ok h).2 n c hc
    exact ⟨f, h⟩
  · induction conf with
    | nil => exact fun _ => ⟨[], rfl⟩
    | cons e rest ih =>
      intro h
      obtain ⟨n, c⟩ := e
      obtain ⟨f, hf⟩ := h n c List.mem_cons_self
      obtain ⟨fs, hfs⟩ := ih (fun m d hd => h m d (List.mem_cons_of_mem _ hd))
      exact ⟨(n, f) :: fs, by unfold collectFns; rw [hf, hfs]; rfl⟩

theorem migFnOf_ok {w : ConvWorld} {c : FnConf} {f : ConvFn} (h : migFnOf w c = .ok f) :
    UsableMig w c ∧ MadeOf w c f ∧ f.pronoms = c.pronoms.map trimSpace := by
  unfold migFnOf at h
  split at h
  · cases h
  · cases h
  · rename_i cmd args hs
    split at h
    · rename_i hc
      split at h
      · cases h
      · rename_i st hst
        cases h
        refine ⟨⟨⟨_, _, hs⟩, hc, ?_⟩, ⟨rfl, hs⟩, rfl⟩
        unfold strategyOf at hst
        split at hst
        · rename_i e; rw [e]; simp
        · split at hst
          · rename_i e; rw [e]; simp
          · split at hst
            · rename_i e; rw [e]; simp
            · cases hst
    · cases h

theorem migFnOf_usable {w : ConvWorld} {c : FnConf} (h : UsableMig w c) : ∃ f, migFnOf w c = .ok f := by
  obtain ⟨⟨cmd, args, h1⟩, h2, h3⟩ := h
  have : ∃ st, strategyOf c.strategy = some st := by
    rcases List.mem_cons.1 h3 with e | h3
    · rw [e]; exact ⟨.replace, rfl⟩
    · rcases List.mem_cons.1 h3 with e | h3
      · rw [e]; exact ⟨.add, rfl⟩
      · rw [List.mem_singleton.1 h3]; exact ⟨.folder, rfl⟩
  obtain ⟨st, hst⟩ := this
  unfold migFnOf
  rw [h1]
  simp only [h2, if_true, hst]
  exact ⟨_, rfl⟩

theorem thumbFnOf_ok {w : ConvWorld} {c : FnConf} {f : ConvFn} (h : thumbFnOf w c = .ok f) :
    MadeOf w c f ∧ f.pronoms = c.pronoms.map trimSpace ∧ f.mime = c.mime := by
  unfold thumbFnOf at h
  split at h
  · cases h
  · cases h
  · rename_i cmd args hs
    split at h
    · cases h
      exact ⟨⟨rfl, hs⟩, rfl, rfl⟩
    · cases h

theorem byPronom_some {fns : AMap Str ConvFn} {p : Str} {f : ConvFn} (h : byPronom fns p = some f) :
    ∃ n, (n, f) ∈ fns ∧ p ∈ f.pronoms := by
  unfold byPronom at h
  obtain ⟨e, h1, h2⟩ := Option.map_eq_some_iff.1 h
  have h3 := List.find?_some h1
  obtain ⟨q, q1, q2⟩ := List.any_eq_true.1 h3
  subst h2
  exact ⟨e.1, List.mem_of_find?_eq_some h1, of_decide_eq_true q2 ▸ q1⟩

theorem byPronom_none {fns : AMap Str ConvFn} {p : Str} : byPronom fns p = none ↔ ∀ n f, (n, f) ∈ fns → p ∉ f.pronoms := by
  unfold byPronom
  rw [Option.map_eq_none_iff, List.find?_eq_none]
  constructor
  · intro h n f hf hp
    exact h (n, f) hf (List.any_eq_true.2 ⟨p, hp, decide_eq_true rfl⟩)
  · intro h e he hc
    obtain ⟨q, q1, q2⟩ := List.any_eq_true.1 hc
    exact h e.1 e.2 he (of_decide_eq_true q2 ▸ q1)

theorem byMime_some {w : ConvWorld} {fns : AMap Str ConvFn} {m : Str} {f : ConvFn} (h : byMime w fns m = some f) :
    ∃ n, (n, f) ∈ fns ∧ ∃ re ∈ f.mime, w.isMatch re m = true := by
  unfold byMime at h
  obtain ⟨e, h1, h2⟩ := Option.map_eq_some_iff.1 h
  have h3 := List.find?_some h1
  obtain ⟨q, q1, q2⟩ := List.any_eq_true.1 h3
  subst h2
  exact ⟨e.1, List.mem_of_find?_eq_some h1, q, q1, q2⟩

theorem byMime_none {w : ConvWorld} {fns : AMap Str ConvFn} {m : Str} :
    byMime w fns m = none ↔ ∀ n f, (n, f) ∈ fns → ∀ re ∈ f.mime, w.isMatch re m ≠ true := by
  unfold byMime
  rw [Option.map_eq_none_iff, List.find?_eq_none]
  constructor
  · intro h n f hf re hre hp
    exact h (n, f) hf (List.any_eq_true.2 ⟨re, hre, hp⟩)
  · intro h e he hc
    obtain ⟨q, q1, q2⟩ := List.any_eq_true.1 hc
    exact h e.1 e.2 he q q1 q2

/-! ## C168 -/

/-- **C168, which configurations are accepted**: those in which every function is usable. -/
theorem C168_accepted {w : ConvWorld} {conf : AMap Str FnConf} :
    (∃ fns, getMigrations w conf = .ok fns) ↔ ∀ n c, (n, c) ∈ conf → UsableMig w c := by
  unfold getMigrations
  rw [collectFns_accepts]
  exact ⟨fun h n c hc => (migFnOf_ok (h n c hc).choose_spec).1, fun h n c hc => migFnOf_usable (h n c hc)⟩

/-- **C168, migration.** In whichever order the functions are gone through: what is taken for a format is one of the functions
configured for it, made of its configuration; nothing is taken exactly if none is configured for it. -/
theorem C168_migration {w : ConvWorld} {conf : AMap Str FnConf} {fns fns' : AMap Str ConvFn} (h : getMigrations w conf = .ok fns)
    (hp : fns'.Perm fns) (p : Str) :
    (∀ f, byPronom fns' p = some f → ∃ n c, ForFormat conf n c p ∧ MadeOf w c f) ∧
    (byPronom fns' p = none ↔ ¬ ∃ n c, ForFormat conf n c p) := by
  refine ⟨fun f hf => ?_, ?_⟩
  · obtain ⟨n, h1, h2⟩ := byPronom_some hf
    obtain ⟨c, c1, c2⟩ := (collectFns_ok h).1 n f (hp.mem_iff.1 h1)
    obtain ⟨_, m1, m2⟩ := migFnOf_ok c2
    rw [m2] at h2
    obtain ⟨q, q1, q2⟩ := List.mem_map.1 h2
    exact ⟨n, c, ⟨c1, q, q1, q2⟩, m1⟩
  · rw [byPronom_none]
    constructor
    · rintro hn ⟨n, c, hc, q, q1, q2⟩
      obtain ⟨f, f1, f2⟩ := (collectFns_ok h).2 n c hc
      apply hn n f (hp.mem_iff.2 f1)
      rw [(migFnOf_ok f2).2.2]
      exact List.mem_map.2 ⟨q, q1, q2⟩
    · intro hn n f hf hpf
      obtain ⟨c, c1, c2⟩ := (collectFns_ok h).1 n f (hp.mem_iff.1 hf)
      rw [(migFnOf_ok c2).2.2] at hpf
      obtain ⟨q, q1, q2⟩ := List.mem_map.1 hpf
      exact hn ⟨n, c, c1, q, q1, q2⟩

/-- **C168 (partial).** If one function only is configured for the format, it is the one that is taken. -/
theorem C168_the_one_partial {w : ConvWorld} {conf : AMap Str FnConf} {fns fns' : AMap Str ConvFn}
    (h : getMigrations w conf = .ok fns) (hp : fns'.Perm fns) {p n : Str} {c : FnConf} (hc : ForFormat conf n c p)
    (ho : ∀ m d, ForFormat conf m d p → d = c) : ∃ f, byPronom fns' p = some f ∧ MadeOf w c f := by
  cases hb : byPronom fns' p with
  | none => exact absurd ⟨n, c, hc⟩ ((C168_migration h hp p).2.1 hb)
  | some f =>
    obtain ⟨m, d, h1, h2⟩ := (C168_migration h hp p).1 f hb
    exact ⟨f, rfl, ho m d h1 ▸ h2⟩

/-- **C168, thumbnails.** What is taken is configured for the format, or — only if none is — for the media type; nothing is
taken exactly if there is none for either. -/
theorem C168_thumbnail {w : ConvWorld} {conf : AMap Str FnConf} {fns f1 f2 : AMap Str ConvFn} (h : getThumbnails w conf = .ok fns)
    (h1 : f1.Perm fns) (h2 : f2.Perm fns) (p m : Str) :
    (∀ f, thumbFor w f1 f2 p m = some f →
      (∃ n c, ForFormat conf n c p ∧ MadeOf w c f) ∨
      ((¬ ∃ n c, ForFormat conf n c p) ∧ ∃ n c, ForMedia w conf n c m ∧ MadeOf w c f)) ∧
    (thumbFor w f1 f2 p m = none ↔ (¬ ∃ n c, ForFormat conf n c p) ∧ ¬ ∃ n c, ForMedia w conf n c m) := by
  have hnone : byPronom f1 p = none ↔ ¬ ∃ n c, ForFormat conf n c p := by
    rw [byPronom_none]
    constructor
    · rintro hn ⟨n, c, hc, q, q1, q2⟩
      obtain ⟨f, g1, g2⟩ := (collectFns_ok h).2 n c hc
      apply hn n f (h1.mem_iff.2 g1)
      rw [(thumbFnOf_ok g2).2.1]
      exact List.mem_map.2 ⟨q, q1, q2⟩
    · intro hn n f hf hpf
      obtain ⟨c, c1, c2⟩ := (collectFns_ok h).1 n f (h1.mem_iff.1 hf)
      rw [(thumbFnOf_ok c2).2.1] at hpf
      obtain ⟨q, q1, q2⟩ := List.mem_map.1 hpf
      exact hn ⟨n, c, c1, q, q1, q2⟩
  have hmnone : byMime w f2 m = none ↔ ¬ ∃ n c, ForMedia w conf n c m := by
    rw [byMime_none]
    constructor
    · rintro hn ⟨n, c, hc, re, q1, q2⟩
      obtain ⟨f, g1, g2⟩ := (collectFns_ok h).2 n c hc
      refine hn n f (h2.mem_iff.2 g1) re ?_ q2
      rw [(thumbFnOf_ok g2).2.2]
      exact q1
    · intro hn n f hf re hre hm
      obtain ⟨c, c1, c2⟩ := (collectFns_ok h).1 n f (h2.mem_iff.1 hf)
      rw [(thumbFnOf_ok c2).2.2] at hre
      exact hn ⟨n, c, c1, re, hre, hm⟩
  unfold thumbFor
  cases hb : byPronom f1 p with
  | some g =>
    refine ⟨fun f hf => ?_, ⟨fun hf => (nomatch hf), fun hf => ?_⟩⟩
    · cases hf
      obtain ⟨n, g1, g2⟩ := byPronom_some hb
      obtain ⟨c, c1, c2⟩ := (collectFns_ok h).1 n _ (h1.mem_iff.1 g1)
      obtain ⟨m1, m2, _⟩ := thumbFnOf_ok c2
      rw [m2] at g2
      obtain ⟨q, q1, q2⟩ := List.mem_map.1 g2
      exact .inl ⟨n, c, ⟨c1, q, q1, q2⟩, m1⟩
    · rw [hnone.2 hf.1] at hb; cases hb
  | none =>
    simp only
    refine ⟨fun f hf => ?_, ⟨fun hf => ⟨hnone.1 hb, hmnone.1 hf⟩, fun hf => hmnone.2 hf.2⟩⟩
    obtain ⟨n, g1, re, g2, g3⟩ := byMime_some hf
    obtain ⟨c, c1, c2⟩ := (collectFns_ok h).1 n _ (h2.mem_iff.1 g1)
    obtain ⟨m1, _, m2⟩ := thumbFnOf_ok c2
    exact .inr ⟨hnone.1 hb, n, c, ⟨c1, re, m2 ▸ g2, g3⟩, m1⟩

/-- **C168, full statement** (false): the same function is taken every time. -/
def C168_full : Prop :=
  ∀ (w : ConvWorld) (conf : AMap Str FnConf) (fns f1 f2 : AMap Str ConvFn) (p : Str), (mkeys conf).Nodup →
    getMigrations w conf = .ok fns → f1.Perm fns → f2.Perm fns → byPronom f1 p = byPronom f2 p

def cvWorld : ConvWorld where
  split s := if s = [] then none else some (splitOn ' ' s)
  compiles _ := true
  isMatch re m := decide (re = m)

def cvConf : AMap Str FnConf :=
  [("PDFA".toList, ⟨"PDFA#01".toList, "gs {source} {destination}".toList, "folder".toList, [], [], [" fmt/14".toList, "fmt/15".toList], []⟩),
   ("Text".toList, ⟨"Text#01".toList, "totext {source} {destination}".toList, "add".toList, [], [], ["fmt/14".toList], []⟩)]

theorem cv_split (s : Str) (h : s ≠ []) : cvWorld.split s = some (splitOn ' ' s) := if_neg h

/-- two programs for PDF 1.0: chance decides -/
theorem C168_full_fails : ¬ C168_full := by
  intro hf
  cases hg : getMigrations cvWorld cvConf with
  | error e =>
    have : ∀ n c, (n, c) ∈ cvConf → UsableMig cvWorld c := by
      intro n c hc
      rcases List.mem_cons.1 hc with hc | hc
      · cases hc; exact ⟨⟨_, _, rfl⟩, rfl, by decide⟩
      · cases List.mem_singleton.1 hc; exact ⟨⟨_, _, rfl⟩, rfl, by decide⟩
    obtain ⟨fns, h⟩ := C168_accepted.2 this
    rw [hg] at h
    cases h
  | ok fns =>
    have := hf cvWorld cvConf fns fns fns.reverse "fmt/14".toList (by decide) hg (List.Perm.refl _) (List.reverse_perm _)
    have hc : ∀ g, getMigrations cvWorld cvConf = .ok g → byPronom g "fmt/14".toList ≠ byPronom g.reverse "fmt/14".toList := by
      intro g hg
      have : g = ((match getMigrations cvWorld cvConf with | .ok g => g | .error _ => []) : AMap Str ConvFn) := by rw [hg]
      rw [this]
      decide +kernel
    exact hc fns hg this

/-- a case of `C168_the_one_partial`: for PDF 1.1 there is one program only -/
example : ∃ f, byPronom ((match getMigrations cvWorld cvConf with | .ok g => g | .error _ => []) : AMap Str ConvFn)
    "fmt/15".toList = some f ∧ f.command = "gs".toList ∧ f.args = ["{source}".toList, "{destination}".toList] := by
  exact ⟨⟨"PDFA#01".toList, "gs".toList, ["{source}".toList, "{destination}".toList], some .folder, [], [],
    ["fmt/14".toList, "fmt/15".toList], []⟩, by decide +kernel, rfl, rfl⟩

/-! ## C169 -/

/-- the places of a command line the tool fills in -/
inductive Hole where
  | source
  | destination
  | background
  | width
  | height
  deriving DecidableEq, Repr

def Hole.text : Hole → Str
  | .source => "{source}".toList
  | .destination => "{destination}".toList
  | .background => "{background}".toList
  | .width => "{width}".toList
  | .height => "{height}".toList

/-- a word of a command line: text and places to fill in -/
inductive Piece where
  | lit (s : Str)
  | hole (h : Hole)
  deriving DecidableEq, Repr

def Piece.text : Piece → Str
  | .lit s => s
  | .hole h => h.text

/-- the word as it is written in the configuration -/
def written (ps : List Piece) : Str := (ps.map Piece.text).flatten

/-- the word with the places filled in (those that have a value) -/
def filledIn (v : Hole → Option Str) (ps : List Piece) : Str :=
  (ps.map (fun
    | .lit s => s
    | .hole h => (v h).getD h.text)).flatten

/-- text between the places has no opening brace -/
def TidyWord (ps : List Piece) : Prop := ∀ s, Piece.lit s ∈ ps → '{' ∉ s

def fillOne (h : Hole) (v : Str) : Piece → Piece
  | .lit s => .lit s
  | .hole g => if g = h then .lit v else .hole g

theorem replaceFuel_lit {old new s : Str} (ho : old.head? = some '{') {t : Str} (hs : '{' ∉ s) {n : Nat} (hn : s.length ≤ n) :
    replaceFuel n old new (s ++ t) = s ++ replaceFuel (n - s.length) old new t := by
  induction s generalizing n with
  | nil => rfl
  | cons c s ih =>
    obtain ⟨m, rfl⟩ : ∃ m, n = m + 1 := ⟨n - 1, by simp at hn; omega⟩
    cases old with
    | nil => cases ho
    | cons o old =>
      cases ho
      show (if ('{' :: old).isPrefixOf (c :: (s ++ t)) then _ else c :: replaceFuel m _ _ (s ++ t)) = _
      have hc : c ≠ '{' := fun e => hs (e ▸ List.mem_cons_self)
      rw [if_neg (by
        simp only [List.isPrefixOf, Bool.and_eq_true, beq_iff_eq]
        exact fun h => hc h.1.symm)]
      rw [ih (fun h => hs (List.mem_cons_of_mem _ h)) (by simp at hn; omega)]
      simp

theorem hole_head (h : Hole) : ∃ r, h.text = '{' :: r ∧ '{' ∉ r := by
  cases h <;> exact ⟨_, rfl, by decide⟩

theorem isPrefixOf_append (a b : Str) : a.isPrefixOf (a ++ b) = true := List.isPrefixOf_iff_prefix.2 (List.prefix_append _ _)

/-- no place is the beginning of another -/
theorem hole_other {g h : Hole} (hne : g ≠ h) (t : Str) : h.text.isPrefixOf (g.text ++ t) = false := by
  cases g <;> cases h <;> first | exact absurd rfl hne | rfl

theorem replaceFuel_written {h : Hole} {v : Str} {ps : List Piece} (ht : TidyWord ps) {n : Nat} (hn : (written ps).length < n) :
    replaceFuel n h.text v (written ps) = written (ps.map (fillOne h v)) := by
  induction ps generalizing n with
  | nil =>
    cases n with
    | zero => rfl
    | succ n => rfl
  | cons p ps ih =>
    have ht' : TidyWord ps := fun s hs => ht s (List.mem_cons_of_mem _ hs)
    have hw : written (p :: ps) = p.text ++ written ps := rfl
    rw [hw] at hn ⊢
    rw [List.length_append] at hn
    have hcons : written ((p :: ps).map (fillOne h v)) = (fillOne h v p).text ++ written (ps.map (fillOne h v)) := rfl
    rw [hcons]
    cases p with
    | lit s =>
      show replaceFuel n h.text v (s ++ written ps) = s ++ _
      obtain ⟨r, hr, _⟩ := hole_head h
      have hn : s.length + (written ps).length < n := hn
      rw [replaceFuel_lit (by rw [hr]; rfl) (ht s List.mem_cons_self) (by omega), ih ht' (by omega)]
    | hole g =>
      have hn : g.text.length + (written ps).length < n := hn
      show replaceFuel n h.text v (g.text ++ written ps) = _
      by_cases hg : g = h
      · subst hg
        simp only [fillOne, if_true]
        obtain ⟨r, hr, _⟩ := hole_head g
        obtain ⟨m, rfl⟩ : ∃ m, n = m + 1 := ⟨n - 1, by omega⟩
        have hp := isPrefixOf_append g.text (written ps)
        have hd : (g.text ++ written ps).drop g.text.length = written ps := List.drop_left
        have hlen : g.text.length = r.length + 1 := by rw [hr]; rfl
        rw [hr] at hp hd ⊢
        rw [List.cons_append] at hp hd ⊢
        show (if _ then v ++ replaceFuel m _ _ _ else _) = _
        rw [if_pos hp, hd]
        have := ih ht' (n := m) (by omega)
        rw [hr] at this
        rw [this]
        rfl
      · simp only [fillOne, if_neg hg]
        obtain ⟨r, hr, hr2⟩ := hole_head g
        obtain ⟨m, rfl⟩ : ∃ m, n = m + 1 := ⟨n - 1, by omega⟩
        have hp := hole_other hg (written ps)
        have hlen : g.text.length = r.length + 1 := by rw [hr]; rfl
        show _ = g.text ++ _
        rw [hr, List.cons_append] at hp ⊢
        show (if _ then _ else '{' :: replaceFuel m _ _ (r ++ written ps)) = _
        rw [if_neg (by rw [hp]; exact nofun)]
        obtain ⟨r', hr', _⟩ := hole_head h
        rw [replaceFuel_lit (by rw [hr']; rfl) hr2 (by omega), ih ht' (by omega)]
        rfl

theorem replaceAll_written {h : Hole} {v : Str} {ps : List Piece} (ht : TidyWord ps) :
    replaceAll h.text v (written ps) = written (ps.map (fillOne h v)) :=
  replaceFuel_written ht (Nat.lt_succ_self _)

theorem tidy_fill {h : Hole} {v : Str} {ps : List Piece} (ht : TidyWord ps) (hv : '{' ∉ v) : TidyWord (ps.map (fillOne h v)) := by
  intro s hs
  obtain ⟨p, p1, p2⟩ := List.mem_map.1 hs
  cases p with
  | lit t => cases p2; exact ht _ p1
  | hole g =>
    by_cases hg : g = h
    · rw [fillOne, if_pos hg] at p2; cases p2; exact hv
    · rw [fillOne, if_neg hg] at p2; cases p2

/-- what migration fills in -/
def migValues (src dst : Str) : Hole → Option Str
  | .source => some src
  | .destination => some dst
  | _ => none

/-- what the thumbnails fill in -/
def thumbValues (src dst bg width height : Str) : Hole → Option Str
  | .source => some src
  | .destination => some dst
  | .background => some bg
  | .width => some width
  | .height => some height

/-- **C169 (partial), migration.** Each word of the command has the names of the two files at the places for them and is
otherwise as configured, if the name of the source file has no opening brace. -/
theorem C169_migration_partial {src : Str} (hs : '{' ∉ src) (dst : Str) {ps : List Piece} (ht : TidyWord ps) :
    migArg src dst (written ps) = filledIn (migValues src dst) ps := by
  unfold migArg
  rw [show "{source}".toList = Hole.source.text from rfl, show "{destination}".toList = Hole.destination.text from rfl,
    replaceAll_written ht, replaceAll_written (tidy_fill ht hs)]
  unfold written filledIn
  rw [List.map_map, List.map_map]
  congr 1
  apply List.map_congr_left
  intro p _
  cases p with
  | lit s => rfl
  | hole h => cases h <;> rfl

/-- **C169 (partial), thumbnails.** -/
theorem C169_thumbnail_partial {src dst bg width : Str} (hs : '{' ∉ src) (hd : '{' ∉ dst) (hb : '{' ∉ bg) (hw : '{' ∉ width)
    (height : Str) {ps : List Piece} (ht : TidyWord ps) :
    thumbArg src dst bg width height (written ps) = filledIn (thumbValues src dst bg width height) ps := by
  unfold thumbArg
  rw [show "{source}".toList = Hole.source.text from rfl, show "{destination}".toList = Hole.destination.text from rfl,
    show "{background}".toList = Hole.background.text from rfl, show "{width}".toList = Hole.width.text from rfl,
    show "{height}".toList = Hole.height.text from rfl, replaceAll_written ht]
  have t1 := tidy_fill (h := .source) ht hs
  have t2 := tidy_fill (h := .destination) t1 hd
  have t3 := tidy_fill (h := .background) t2 hb
  have t4 := tidy_fill (h := .width) t3 hw
  rw [replaceAll_written t1, replaceAll_written t2, replaceAll_written t3, replaceAll_written t4]
  unfold written filledIn
  simp only [List.map_map]
  congr 1
  apply List.map_congr_left
  intro p _
  cases p with
  | lit s => rfl
  | hole h => cases h <;> rfl

theorem mem_takeWhile_holds {f : Char → Bool} {l : Str} {x : Char} (h : x ∈ l.takeWhile f) : f x = true := by
  induction l with
  | nil => cases h
  | cons c l ih =>
    by_cases hc : f c = true
    · rw [List.takeWhile_cons_of_pos hc] at h
      rcases List.mem_cons.1 h with h | h
      · exact h ▸ hc
      · exact ih h
    · rw [List.takeWhile_cons_of_neg hc] at h; cases h

theorem starSplit_ext {ext : Str} (h : '*' ∉ ext) : starSplit ("gocfl_*".toList ++ ext) = ("gocfl_".toList, ext) := by
  unfold starSplit
  have hr : '*' ∉ ext.reverse := fun e => h (List.mem_reverse.1 e)
  have key : ∀ (l : Str), '*' ∉ l → ∀ t, (l ++ '*' :: t).dropWhile (· ≠ '*') = '*' :: t ∧
      (l ++ '*' :: t).takeWhile (· ≠ '*') = l := by
    intro l hl t
    induction l with
    | nil => exact ⟨rfl, rfl⟩
    | cons c l ih =>
      have hc : c ≠ '*' := fun e => hl (e ▸ List.mem_cons_self)
      obtain ⟨i1, i2⟩ := ih (fun e => hl (List.mem_cons_of_mem _ e))
      rw [List.cons_append, List.dropWhile_cons_of_pos (by simpa using hc), List.takeWhile_cons_of_pos (by simpa using hc), i1, i2]
      exact ⟨rfl, rfl⟩
  rw [if_pos (by simp)]
  rw [List.reverse_append]
  have := key ext.reverse hr "_lfcog".toList
  have he : ext.reverse ++ "gocfl_*".toList.reverse = ext.reverse ++ '*' :: "_lfcog".toList := rfl
  rw [he, this.1, this.2, List.reverse_reverse]
  rfl

/-- the extension of a name has no folder -/
theorem fileExt_slash (p : Str) : '/' ∉ fileExt p := by
  unfold fileExt
  simp only
  split
  · intro h
    rcases List.mem_cons.1 h with h | h
    · cases h
    · have h := List.mem_reverse.1 h
      have := (List.takeWhile_subset _) h
      have := mem_takeWhile_holds this
      simp at this
  · exact List.not_mem_nil

theorem createTemp_mem {dir rnd p : Str} {c : Char} (h : c ∈ createTemp dir rnd p) :
    c ∈ dir ∨ c = '/' ∨ c ∈ rnd ∨ c ∈ p := by
  have hs : ∀ c, c ∈ (starSplit p).1 ++ rnd ++ (starSplit p).2 → c ∈ rnd ∨ c ∈ p := by
    intro c hc
    rcases List.mem_append.1 hc with hc | hc
    · rcases List.mem_append.1 hc with hc | hc
      · right
        unfold starSplit at hc
        split at hc
        · exact List.mem_reverse.1 ((List.dropWhile_suffix _).subset (List.mem_of_mem_tail (List.mem_reverse.1 hc)))
        · exact hc
      · exact .inl hc
    · right
      unfold starSplit at hc
      split at hc
      · exact List.mem_reverse.1 ((List.takeWhile_prefix _).subset (List.mem_reverse.1 hc))
      · cases hc
  unfold createTemp at h
  simp only at h
  split at h
  · rcases List.mem_append.1 h with h | h
    · exact .inl h
    · rcases hs c h with h | h
      · exact .inr (.inr (.inl h))
      · exact .inr (.inr (.inr h))
  · rcases List.mem_append.1 h with h | h
    · exact .inl h
    · rcases List.mem_cons.1 h with h | h
      · exact .inr (.inl h)
      · rcases hs c h with h | h
        · exact .inr (.inr (.inl h))
        · exact .inr (.inr (.inr h))

/-- **C169 (partial), the call.** For a content file whose extension has no opening brace the program is called with the
words of its configuration, the places filled in. -/
theorem C169_call_partial {f : ConvFn} {dir rnd content : Str} (target : Str) (hd : '{' ∉ dir) (hr : '{' ∉ rnd)
    (he : '{' ∉ fileExt content) {pss : List (List Piece)} (ha : f.args = pss.map written) (ht : ∀ ps ∈ pss, TidyWord ps) :
    migCall f dir rnd content target =
      pss.map (filledIn (migValues (migTemp dir rnd (fileExt content)) (migTarget (migTemp dir rnd (fileExt content)) target))) := by
  unfold migCall
  simp only
  rw [ha, List.map_map]
  apply List.map_congr_left
  intro ps hps
  refine C169_migration_partial (fun h => ?_) _ (ht ps hps)
  rcases createTemp_mem h with h | h | h | h
  · exact hd h
  · cases h
  · exact hr h
  · rcases List.mem_append.1 h with h | h
    · exact absurd h (by decide)
    · exact he h

/-- **C169 (partial), the extension.** The file the program gets has the extension of the content file, if that has no `*`. -/
theorem C169_extension_partial {dir rnd content : Str} (hne : fileExt content ≠ [])
    (he : '*' ∉ fileExt content) : fileExt (migTemp dir rnd (fileExt content)) = fileExt content := by
  obtain ⟨x, hx, hdot⟩ : ∃ x, fileExt content = '.' :: x ∧ '.' ∉ x := by
    unfold fileExt at hne ⊢
    simp only at hne ⊢
    split at hne
    · rename_i h
      rw [if_pos h]
      refine ⟨_, rfl, fun hm => ?_⟩
      have := mem_takeWhile_holds (List.mem_reverse.1 hm)
      simp at this
    · exact absurd rfl hne
  have hsl : '/' ∉ x := fun h => fileExt_slash content (hx ▸ List.mem_cons_of_mem _ h)
  rw [hx] at he
  have hform : ∃ pre, migTemp dir rnd (fileExt content) = pre ++ '.' :: x := by
    unfold migTemp createTemp
    rw [hx, starSplit_ext he]
    simp only
    split
    · exact ⟨dir ++ ("gocfl_".toList ++ rnd), by simp⟩
    · exact ⟨dir ++ '/' :: ("gocfl_".toList ++ rnd), by simp⟩
  obtain ⟨pre, hform⟩ := hform
  rw [hform, hx]
  unfold fileExt
  simp only
  have hrev : (pre ++ '.' :: x).reverse = x.reverse ++ '.' :: pre.reverse := by simp
  rw [hrev]
  have tw : ∀ (c : Char) (l t : Str), c ∉ l → ∀ d, (d ≠ c) →
      (l ++ d :: t).takeWhile (fun y => decide (y ≠ c)) = l ++ d :: t.takeWhile (fun y => decide (y ≠ c)) := by
    intro c l t hl d hd
    induction l with
    | nil => rw [List.nil_append, List.takeWhile_cons_of_pos (by simpa using hd)]; rfl
    | cons e l ih =>
      rw [List.cons_append, List.takeWhile_cons_of_pos (by
        have : e ≠ c := fun he => hl (he ▸ List.mem_cons_self)
        simpa using this), ih (fun h => hl (List.mem_cons_of_mem _ h))]
      rfl
  rw [tw '/' x.reverse pre.reverse (fun h => hsl (List.mem_reverse.1 h)) '.' (by decide)]
  rw [if_pos (by simp)]
  have tw2 : ∀ (l t : Str), '.' ∉ l → (l ++ '.' :: t).takeWhile (fun y => decide (y ≠ '.')) = l := by
    intro l t hl
    induction l with
    | nil => rw [List.nil_append, List.takeWhile_cons_of_neg (by simp)]
    | cons e l ih =>
      rw [List.cons_append, List.takeWhile_cons_of_pos (by
        have : e ≠ '.' := fun he => hl (he ▸ List.mem_cons_self)
        simpa using this), ih (fun h => hl (List.mem_cons_of_mem _ h))]
  rw [tw2 _ _ (fun h => hdot (List.mem_reverse.1 h)), List.reverse_reverse]

/-- **C169, full statement** (false): for every content file, with the words of the configuration, the places filled in, and a
source file with the same extension. -/
def C169_full : Prop :=
  ∀ (f : ConvFn) (dir rnd content target : Str) (pss : List (List Piece)), '{' ∉ dir → '{' ∉ rnd → f.args = pss.map written →
    (∀ ps ∈ pss, TidyWord ps) →
    migCall f dir rnd content target =
      pss.map (filledIn (migValues (migTemp dir rnd (fileExt content)) (migTarget (migTemp dir rnd (fileExt content)) target)))

def cvFn : ConvFn :=
  ⟨"PDFA#01".toList, "gs".toList, ["-o{destination}".toList, "{source}".toList], some .folder, [], [], [], []⟩

def cvPieces : List (List Piece) := [[.lit "-o".toList, .hole .destination], [.hole .source]]

theorem cv_tidy : ∀ ps ∈ cvPieces, TidyWord ps := by
  intro ps hps s hs
  rcases List.mem_cons.1 hps with rfl | hps
  · rcases List.mem_cons.1 hs with hs | hs
    · cases hs; decide
    · cases List.mem_singleton.1 hs
  · cases List.mem_singleton.1 hps
    cases List.mem_singleton.1 hs

/-- the program is called as configured -/
example : migCall cvFn "/tmp".toList "17".toList "v1/content/a.pdf".toList "a.pdf/v2.a.pdf".toList =
    ["-o/tmp/target.gocfl_17.pdf.pdf".toList, "/tmp/gocfl_17.pdf".toList] := by
  rw [C169_call_partial _ (by decide) (by decide) (by decide) (show cvFn.args = cvPieces.map written from rfl) cv_tidy]
  decide +kernel

/-- A content file named `a.{destination}`: the program is told to read a file that does not exist. -/
theorem C169_full_fails : ¬ C169_full := by
  intro hf
  have := hf cvFn "/tmp".toList "17".toList "v1/content/a.{destination}".toList "b".toList cvPieces (by decide) (by decide) rfl
    cv_tidy
  exact absurd this (by decide +kernel)

/-- A content file named `a.*p`: the file the program gets has another extension. -/
theorem C169_full_fails_star :
    fileExt (migTemp "/tmp".toList "17".toList (fileExt "v1/content/a.*p".toList)) ≠ fileExt "v1/content/a.*p".toList := by
  decide +kernel

/-! ## Thumbnails, and the file the program is to write -/

/-- a function of the thumbnails that can be used: a command, and every media type an expression that compiles -/
def UsableThumb (w : ConvWorld) (c : FnConf) : Prop :=
  (∃ cmd args, w.split c.command = some (cmd :: args)) ∧ ∀ re ∈ c.mime, w.compiles re = true

theorem thumbFnOf_accepts {w : ConvWorld} {c : FnConf} : (∃ f, thumbFnOf w c = .ok f) ↔ UsableThumb w c := by
  unfold thumbFnOf UsableThumb
  split
  · rename_i h
    refine ⟨fun ⟨_, hf⟩ => (nomatch hf), fun ⟨⟨_, _, h1⟩, _⟩ => ?_⟩
    rw [h] at h1; cases h1
  · rename_i h
    refine ⟨fun ⟨_, hf⟩ => (nomatch hf), fun ⟨⟨_, _, h1⟩, _⟩ => ?_⟩
    rw [h] at h1; cases h1
  · rename_i cmd args h
    split
    · rename_i hc
      exact ⟨fun _ => ⟨⟨_, _, h⟩, List.all_eq_true.1 hc⟩, fun _ => ⟨_, rfl⟩⟩
    · rename_i hc
      exact ⟨fun ⟨_, hf⟩ => (nomatch hf), fun h2 => absurd (List.all_eq_true.2 h2.2) hc⟩

/-- **C168, which configurations of thumbnails are accepted**: those in which every function is usable. -/
theorem C168_accepted_thumbnails {w : ConvWorld} {conf : AMap Str FnConf} :
    (∃ fns, getThumbnails w conf = .ok fns) ↔ ∀ n c, (n, c) ∈ conf → UsableThumb w c := by
  unfold getThumbnails
  rw [collectFns_accepts]
  exact ⟨fun h n c hc => thumbFnOf_accepts.1 (h n c hc), fun h n c hc => thumbFnOf_accepts.2 (h n c hc)⟩

/-! ## The file the program is to write -/

theorem cleanGo_last {r : Bool} {n : Str} (hn : ValidComp n) (l acc : List Str) : ∃ X, cleanGo r acc (l ++ [n]) = X ++ [n] := by
  induction l generalizing acc with
  | nil =>
    refine ⟨acc.reverse, ?_⟩
    show cleanGo r acc [n] = _
    unfold cleanGo
    rw [if_neg (by rintro (h | h); exacts [hn.1 h, hn.2.1 h]), if_neg hn.2.2.1]
    unfold cleanGo
    simp
  | cons c l ih =>
    rw [List.cons_append]
    unfold cleanGo
    split
    · exact ih _
    · split
      · exact ih _
      · exact ih _

theorem pathClean_last {a n : Str} (hn : ValidComp n) : (splitOn '/' (pathClean (a ++ '/' :: n))).getLast? = some n := by
  have key : ∀ X : List Str, (splitOn '/' (joinWith '/' (X ++ [n]))).getLast? = some n := by
    intro X
    cases X with
    | nil =>
      show (splitOn '/' n).getLast? = _
      rw [splitOn_noSep hn.2.2.2]; rfl
    | cons c X =>
      rw [joinWith_append (by simp) (by simp)]
      show (splitOn '/' (_ ++ '/' :: n)).getLast? = _
      rw [splitOn_append, splitOn_noSep hn.2.2.2, List.getLast?_concat]
  have hs : splitOn '/' (a ++ '/' :: n) = splitOn '/' a ++ [n] := by rw [splitOn_append, splitOn_noSep hn.2.2.2]
  unfold pathClean
  split
  · rename_i r hr
    rw [hs]
    obtain ⟨X, hX⟩ := cleanGo_last (r := true) hn (splitOn '/' a) []
    rw [hX]
    have := splitOn_append '/' [] (joinWith '/' (X ++ [n]))
    rw [List.nil_append] at this
    rw [this, List.getLast?_append, key]
    rfl
  · rw [hs]
    obtain ⟨X, hX⟩ := cleanGo_last (r := false) hn (splitOn '/' a) []
    rw [hX]
    have := key X
    split
    · rename_i h0
      rw [h0] at this
      exact absurd (Option.some.inj this).symm hn.1
    · exact this

theorem pathBase_last {a n : Str} (h0 : n ≠ []) (hn : '/' ∉ n) : pathBase (a ++ '/' :: n) = n := by
  obtain ⟨c, m, hm⟩ : ∃ c m, n.reverse = c :: m := by
    cases hr : n.reverse with
    | nil => exact absurd (List.reverse_eq_nil_iff.1 hr) h0
    | cons c m => exact ⟨c, m, rfl⟩
  have hsl : ∀ x ∈ n.reverse, x ≠ '/' := fun x hx e => hn (e ▸ List.mem_reverse.1 hx)
  have tw : ∀ l t : Str, (∀ x ∈ l, x ≠ '/') → (l ++ '/' :: t).takeWhile (fun y => decide (y ≠ '/')) = l := by
    intro l t hl
    induction l with
    | nil => rw [List.nil_append, List.takeWhile_cons_of_neg (by simp)]
    | cons e l ih =>
      rw [List.cons_append, List.takeWhile_cons_of_pos (by simpa using hl e List.mem_cons_self), ih (fun x hx => hl x (List.mem_cons_of_mem _ hx))]
  have hd : ((a ++ '/' :: n).reverse.dropWhile (fun y => decide (y = '/'))) = n.reverse ++ '/' :: a.reverse := by
    rw [List.reverse_append, List.reverse_cons, List.append_assoc, List.singleton_append, hm, List.cons_append,
      List.dropWhile_cons_of_neg (by simpa using hsl c (hm ▸ List.mem_cons_self))]
  unfold pathBase
  rw [if_neg (by simp), hd, tw _ _ hsl, List.reverse_reverse]
  split
  · rename_i h; exact absurd rfl h0
  · rfl

theorem createTemp_name {dir rnd p : Str} (h0 : rnd ≠ []) (hr : '/' ∉ rnd) (hp : '/' ∉ p) :
    ∃ a n, createTemp dir rnd p = a ++ '/' :: n ∧ n ≠ [] ∧ '/' ∉ n := by
  have hn : (starSplit p).1 ++ rnd ++ (starSplit p).2 ≠ [] := by simp [h0]
  have hs : '/' ∉ (starSplit p).1 ++ rnd ++ (starSplit p).2 := by
    intro hc
    rcases List.mem_append.1 hc with hc | hc
    · rcases List.mem_append.1 hc with hc | hc
      · unfold starSplit at hc
        split at hc
        · exact hp (List.mem_reverse.1 ((List.dropWhile_suffix _).subset (List.mem_of_mem_tail (List.mem_reverse.1 hc))))
        · exact hp hc
      · exact hr hc
    · unfold starSplit at hc
      split at hc
      · exact hp (List.mem_reverse.1 ((List.takeWhile_prefix _).subset (List.mem_reverse.1 hc)))
      · cases hc
  unfold createTemp
  simp only
  split
  · rename_i hl
    obtain ⟨d, rfl⟩ := List.getLast?_eq_some_iff.1 hl
    exact ⟨d, _, by simp, hn, hs⟩
  · exact ⟨dir, _, rfl, hn, hs⟩

/-- **C169, the two files**: the file the program is to write is never the one it reads. -/
theorem C169_target_other {dir rnd : Str} (h0 : rnd ≠ []) (hr : '/' ∉ rnd) (content target : Str) :
    migTarget (migTemp dir rnd (fileExt content)) target ≠ migTemp dir rnd (fileExt content) := by
  obtain ⟨a, n, h1, h2, h3⟩ := createTemp_name (dir := dir) h0 hr (p := "gocfl_*".toList ++ fileExt content)
    (fun h => (List.mem_append.1 h).elim (by decide) (fileExt_slash _))
  unfold migTemp
  rw [h1]
  intro he
  unfold migTarget at he
  rw [pathBase_last h2 h3] at he
  have hv : ValidComp ("target.".toList ++ n ++ fileExt target) := by
    refine ⟨fun h => (nomatch h), fun h => (nomatch h), fun h => (nomatch h), fun h => ?_⟩
    rcases List.mem_append.1 h with h | h
    · rcases List.mem_append.1 h with h | h
      · exact absurd h (by decide)
      · exact h3 h
    · exact fileExt_slash _ h
  have hj : pathJoin [pathDir (a ++ '/' :: n), "target.".toList ++ n ++ fileExt target] =
      pathClean (pathDir (a ++ '/' :: n) ++ '/' :: ("target.".toList ++ n ++ fileExt target)) := by
    have hne : pathDir (a ++ '/' :: n) ≠ [] := pathClean_ne_nil _
    cases hd : pathDir (a ++ '/' :: n) with
    | nil => exact absurd hd hne
    | cons c d => rfl
  rw [hj] at he
  have hl := pathClean_last (a := pathDir (a ++ '/' :: n)) hv
  rw [he, splitOn_append, splitOn_noSep h3, List.getLast?_concat] at hl
  have := congrArg List.length (Option.some.inj hl)
  simp only [List.length_append] at this
  have h7 : "target.".toList.length = 7 := rfl
  omega

example : migTarget (migTemp "/tmp".toList "17".toList ".pdf".toList) "a/b.pdf".toList = "/tmp/target.gocfl_17.pdf.pdf".toList := by decide +kernel


/-- the hypotheses of C169_target_other are met -/
example : migTarget (migTemp "/tmp".toList "17".toList (fileExt "v1/content/a.pdf".toList)) "a.pdf/v2.a.pdf".toList ≠
    migTemp "/tmp".toList "17".toList (fileExt "v1/content/a.pdf".toList) := C169_target_other (by decide) (by decide) _ _

/-- a configuration of thumbnails that is accepted, and one with a media type that does not compile -/
example : (∃ fns, getThumbnails ⟨fun s => some [s], fun s => s != "(".toList, fun _ _ => false⟩
      [("a".toList, ⟨"a".toList, "convert".toList, [], [], [], ["fmt/1".toList], ["image/.*".toList]⟩)] = .ok fns) ∧
    ¬ ∃ fns, getThumbnails ⟨fun s => some [s], fun s => s != "(".toList, fun _ _ => false⟩
      [("a".toList, ⟨"a".toList, "convert".toList, [], [], [], ["fmt/1".toList], ["image/.*".toList, "(".toList]⟩)] = .ok fns := by
  rw [C168_accepted_thumbnails, C168_accepted_thumbnails]
  constructor
  · intro n c hc
    cases List.mem_singleton.1 hc
    exact ⟨⟨_, _, rfl⟩, by decide⟩
  · intro h
    exact absurd ((h _ _ (List.mem_singleton.2 rfl)).2 "(".toList (by decide)) (by decide)

end Gocfl
