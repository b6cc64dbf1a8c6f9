import Verif.Props.AcceptedObject
import Verif.Props.Extract

/-! # Objects that validate can be extracted (C188) -/

namespace Gocfl

/-- Extraction of one digest of a state, when every path has an extraction name. -/
theorem extractNames_total {hash : Option (Bytes → Str)} {src : FS} {xp : ExtractPath} (hx : ∀ p, ∃ x, xp p = .ok (some x))
    {i : Str} {is : List Str} {d : Str} {names : List Str} :
    (extractNames hash src xp (i :: is) d names).err = none ↔
      (names ≠ [] → ∃ b h, mget src i = some b ∧ hash = some h ∧ h b = d) := by
  induction names with
  | nil => simp [extractNames]
  | cons e es ih =>
    obtain ⟨x, hx⟩ := hx e
    have key : (copyOut hash src i x d).2 = none ↔ ∃ b h, mget src i = some b ∧ hash = some h ∧ h b = d := by
      unfold copyOut
      cases hb : mget src i with
      | none => simp
      | some b =>
        cases hash with
        | none => simp
        | some h =>
          simp only [Option.some.injEq]
          by_cases hd : h b = d <;> simp [hd]
    simp only [extractNames, hx]
    cases hc : (copyOut hash src i x d).2 with
    | some err =>
      rw [hc] at key
      simp only [ne_eq, reduceCtorEq, not_false_eq_true, forall_const, false_iff] at key ⊢
      exact key
    | none =>
      have := key.1 hc
      simp only [ne_eq, reduceCtorEq, not_false_eq_true, forall_const]
      rw [ih]
      exact ⟨fun _ => this, fun h _ => h⟩

/-- When an extraction succeeds, if every path has an extraction name. -/
theorem extract_total_iff {w : World} {inv : Inv} {src : FS} {xp : ExtractPath} (hx : ∀ p, ∃ x, xp p = .ok (some x)) {v : Str}
    {wm : Bool} {ver : Version} (hv : mget inv.versions (selectVersion inv v) = some ver) :
    (extract w inv src xp v wm).err = none ↔ ∀ d names, (d, names) ∈ ver.state → ∃ i is, mget inv.manifest d = some (i :: is) ∧
      (names ≠ [] → ∃ b h, mget src i = some b ∧ w.hash inv.digestAlg = some h ∧ h b = d) := by
  have h1 : (extract w inv src xp v wm).err = none ↔
      (extractState (w.hash inv.digestAlg) src xp inv.manifest ver.state).err = none := by
    unfold extract
    rw [hv]
    simp only
    cases (extractState (w.hash inv.digestAlg) src xp inv.manifest ver.state).err <;> simp
  rw [h1, extractState_err_iff]
  have h2 : ∀ d names, (extractOne (w.hash inv.digestAlg) src xp inv.manifest (d, names)).err = none ↔
      ∃ i is, mget inv.manifest d = some (i :: is) ∧
        (names ≠ [] → ∃ b h, mget src i = some b ∧ w.hash inv.digestAlg = some h ∧ h b = d) := by
    intro d names
    unfold extractOne
    simp only [extractState]
    cases hm : mget inv.manifest d with
    | none => simp
    | some l =>
      cases l with
      | nil => simp
      | cons i is =>
        simp only
        have := extractNames_total (hash := w.hash inv.digestAlg) (src := src) hx (i := i) (is := is) (d := d) (names := names)
        cases he : (extractNames (w.hash inv.digestAlg) src xp (i :: is) d names).err with
        | some e =>
          rw [he] at this
          simp only [reduceCtorEq, false_iff] at this ⊢
          rintro ⟨i', is', hi, hh⟩
          cases hi
          exact this hh
        | none =>
          rw [he] at this
          simp only [true_iff]
          exact ⟨i, is, rfl, this.1 rfl⟩
  exact ⟨fun h d names hd => (h2 d names).1 (h _ hd), fun h e he => (h2 e.1 e.2).2 (h e.1 e.2 he)⟩

/-- The version holds files whose digests are written in small letters and have content. -/
def FetchableVersion (inv : Inv) (ver : Version) : Prop :=
  ∀ d names, (d, names) ∈ ver.state → (∃ c m, (d, c :: m) ∈ inv.manifest) ∧ (names ≠ [] → toLower d = d)

theorem accepted_loaded {w : World} {env : Env} {plain : Bool} {blank : Inv} {fs : FS} {folder : Str} {F f : List Fnd} {inv : Inv}
    (h : checkFolder w env plain blank fs folder = .ok F) (hn : NoErrors F)
    (hl : loadByFolder w env plain blank fs folder = .ok (inv, f)) :
    (mkeys inv.manifest).Nodup ∧ (∀ v ver d ps, (v, ver) ∈ inv.versions → (d, ps) ∈ ver.state → ∃ m, (d, m) ∈ inv.manifest) ∧
      ∃ hash, w.hash inv.digestAlg = some hash ∧ HoldsContent hash inv (subFS fs folder) := by
  obtain ⟨inv', f', hash, hl', hh, H⟩ := C75_accepted_content h hn
  rw [hl] at hl'; cases hl'
  obtain ⟨inv', f', g, hl', hr, _, rfl⟩ := checkFolder_ok h hn
  rw [hl] at hl'; cases hl'
  rw [noErrors_append] at hn
  obtain ⟨b, r, x, g, _, _, hx, _, rfl, rfl⟩ := loadRoot_ok hr
  rw [noErrors_append] at hn
  have C := accepted_checked ⟨x.1, x.2, hx, hn.1.1⟩
  have hx' : x.1.manifest = r.inv.manifest ∧ x.1.versions = r.inv.versions := by
    unfold finalize at hx
    cases h1 : collect (fun (e : Str × Version) => finalizeVersion (r.vm e.1) e.1) r.inv.versions with
    | error e => rw [h1] at hx; cases hx
    | ok a =>
      cases h2 : check env r with
      | error e => rw [h1, h2] at hx; cases hx
      | ok c => rw [h1, h2] at hx; cases hx; exact ⟨rfl, rfl⟩
  refine ⟨?_, ?_, hash, hh, H⟩
  · show (mkeys x.1.manifest).Nodup
    rw [hx'.1]; exact C.manifestKeys
  · show ∀ v ver d ps, (v, ver) ∈ x.1.versions → (d, ps) ∈ ver.state → ∃ m, (d, m) ∈ x.1.manifest
    rw [hx'.1, hx'.2]; exact C.covered

/-- **C188**, exactly: a version of an object that validates without errors can be extracted, all of it, if and only if
every digest of its files has a content path and is written in small letters. -/
theorem C188_extract_iff {w : World} {env : Env} {plain : Bool} {blank : Inv} {fs : FS} {folder : Str} {F f : List Fnd} {inv : Inv}
    (hlow : LowerHash w) (h : checkFolder w env plain blank fs folder = .ok F) (hn : NoErrors F)
    (hl : loadByFolder w env plain blank fs folder = .ok (inv, f)) {xp : ExtractPath} (hx : ∀ p, ∃ x, xp p = .ok (some x))
    {v : Str} {wm : Bool} {ver : Version} (hv : mget inv.versions (selectVersion inv v) = some ver) :
    (extract w inv (subFS fs folder) xp v wm).err = none ↔ FetchableVersion inv ver := by
  obtain ⟨hk, _, hash, hh, H⟩ := accepted_loaded h hn hl
  rw [extract_total_iff hx hv]
  unfold FetchableVersion
  refine forall_congr' fun d => forall_congr' fun names => forall_congr' fun _ => ?_
  constructor
  · rintro ⟨i, is, hm, hi⟩
    refine ⟨⟨i, is, mem_of_mget hm⟩, fun hne => ?_⟩
    obtain ⟨b, h', _, hh', rfl⟩ := hi hne
    exact hlow _ _ _ hh'
  · rintro ⟨⟨i, is, hm⟩, hd⟩
    refine ⟨i, is, mget_of_mem hk hm, fun hne => ?_⟩
    obtain ⟨b, hb, hhb⟩ := H.present d _ i hm List.mem_cons_self
    exact ⟨b, hash, hb, hh, hhb.trans (hd hne)⟩

/-- **C188** if every digest has a content path and small letters: whatever version is asked for, extraction of an object
that validates without errors succeeds, and every file of the version is there with content of its digest. -/
theorem C188_extract_partial {w : World} {env : Env} {plain : Bool} {blank : Inv} {fs out : FS} {folder : Str} {F f : List Fnd}
    {inv : Inv} (hlow : LowerHash w) (h : checkFolder w env plain blank fs folder = .ok F) (hn : NoErrors F)
    (hl : loadByFolder w env plain blank fs folder = .ok (inv, f))
    (hsmall : ∀ d m, (d, m) ∈ inv.manifest → toLower d = d ∧ m ≠ [])
    {xp : ExtractPath} (hx : ∀ p, ∃ x, xp p = .ok (some x)) (hinj : ∀ p q x, xp p = .ok (some x) → xp q = .ok (some x) → p = q)
    (hone : ∀ v p d d', HasFile inv v p d → HasFile inv v p d' → d = d') (hkeys : (mkeys inv.versions).Nodup)
    {v : Str} {ver : Version} (hv : mget inv.versions (selectVersion inv v) = some ver) :
    (extract w inv (subFS fs folder) xp v false).err = none ∧
      ∀ p d x, HasFile inv (selectVersion inv v) p d → xp p = .ok (some x) →
        ∃ g b, w.hash inv.digestAlg = some g ∧
          mget (applyOps out (extract w inv (subFS fs folder) xp v false).trace) x = some b ∧ g b = d := by
  obtain ⟨_, hcov, _⟩ := accepted_loaded h hn hl
  have he : (extract w inv (subFS fs folder) xp v false).err = none := by
    rw [C188_extract_iff hlow h hn hl hx hv]
    intro d names hd
    obtain ⟨m, hm⟩ := hcov _ ver d names (mem_of_mget hv) hd
    obtain ⟨h1, h2⟩ := hsmall d m hm
    cases m with
    | nil => exact absurd rfl h2
    | cons c m => exact ⟨⟨c, m, hm⟩, fun _ => h1⟩
  refine ⟨he, fun p d x hp hpx => ?_⟩
  refine C27_verified_partial he ?_ (fun hc => by cases hc) hp hpx
    ((C28_complete_partial hkeys he ?_ x).2 (.inl ⟨p, d, hp, hpx⟩))
  · intro p d p' d' x h1 h2 h3 h4
    obtain rfl := hinj p p' x h3 h4
    exact hone _ p d d' h1 h2
  · intro p q d x _ _ _ hq
    obtain ⟨y, hy⟩ := hx q
    rw [hy] at hq; cases hq

/-- The full claim. -/
def C188_full : Prop := ∀ (w : World) (env : Env) (plain : Bool) (blank : Inv) (fs : FS) (folder : Str) (F f : List Fnd) (inv : Inv)
  (xp : ExtractPath) (v : Str) (wm : Bool) (ver : Version), LowerHash w → checkFolder w env plain blank fs folder = .ok F → NoErrors F →
  loadByFolder w env plain blank fs folder = .ok (inv, f) → (∀ p, ∃ x, xp p = .ok (some x)) →
  mget inv.versions (selectVersion inv v) = some ver → (extract w inv (subFS fs folder) xp v wm).err = none

/-- the object of C75's example with the given letters of the digest -/
def xacInv (d : Str) : Inv :=
  { ockInv with
    manifest := [(d, ["v1/content/a".toList])]
    versions := [("v1".toList, ⟨"t".toList, "m".toList, "u".toList, "mailto:u@x".toList, [(d, ["a".toList])]⟩)] }

def xacWorld (d : Str) : World :=
  { ockWorld with dec := fun b => if b = [9] then some { inv := xacInv d, vmeta := [] } else none }

theorem xac_lower (d : Str) : LowerHash (xacWorld d) := by
  intro a h b hh
  have hh : (if a = "sha512".toList then some (fun b => if b = [1] then "d1".toList else "ad".toList) else none) = some h := hh
  split at hh
  · cases hh
    by_cases hb : b = [1]
    · simp only [hb, if_true]; decide
    · simp only [hb, if_false]; decide
  · cases hh

theorem xac_accepted : checkFolder (xacWorld "D1".toList) exEnv false ockInv ockFS "o".toList = .ok [] := by decide

theorem xac_loads : ∃ inv f, loadByFolder (xacWorld "D1".toList) exEnv false ockInv ockFS "o".toList = .ok (inv, f) ∧
    inv.versions = (xacInv "D1".toList).versions ∧ inv.head = "v1".toList := by
  cases h : loadByFolder (xacWorld "D1".toList) exEnv false ockInv ockFS "o".toList with
  | error e =>
    have : (loadByFolder (xacWorld "D1".toList) exEnv false ockInv ockFS "o".toList).toOption.isSome = true := by decide
    rw [h] at this; cases this
  | ok x =>
    have h1 : (loadByFolder (xacWorld "D1".toList) exEnv false ockInv ockFS "o".toList).toOption.any (fun x =>
      decide (x.1.versions = (xacInv "D1".toList).versions) && decide (x.1.head = "v1".toList)) = true := by decide
    rw [h] at h1
    have h1 : (decide (x.1.versions = (xacInv "D1".toList).versions) && decide (x.1.head = "v1".toList)) = true := h1
    rw [Bool.and_eq_true, decide_eq_true_eq, decide_eq_true_eq] at h1
    exact ⟨x.1, x.2, rfl, h1⟩

/-- C188 is violated: validation takes digests in capital letters, extraction fails on the first such file. -/
theorem C188_full_fails : ¬ C188_full := by
  intro hf
  obtain ⟨inv, f, hl, hv, hh⟩ := xac_loads
  have hn : NoErrors ([] : List Fnd) := by simp [NoErrors]
  have hsel : mget inv.versions (selectVersion inv []) = some ⟨"t".toList, "m".toList, "u".toList, "mailto:u@x".toList, [("D1".toList, ["a".toList])]⟩ := by
    unfold selectVersion
    rw [hv, hh]; decide
  have h := hf (xacWorld "D1".toList) exEnv false ockInv ockFS "o".toList [] f inv (fun p => .ok (some p)) [] false _ (xac_lower _)
    xac_accepted hn hl (fun p => ⟨p, rfl⟩) hsel
  have := ((C188_extract_iff (xac_lower _) xac_accepted hn hl (fun p => ⟨p, rfl⟩) hsel).1 h "D1".toList ["a".toList] (by simp)).2 (by simp)
  exact absurd this (by decide)

/-- the object with small letters is extracted -/
example : ∃ inv f, loadByFolder (xacWorld "d1".toList) exEnv false ockInv ockFS "o".toList = .ok (inv, f) ∧
    checkFolder (xacWorld "d1".toList) exEnv false ockInv ockFS "o".toList = .ok [] ∧
    (extract (xacWorld "d1".toList) inv (subFS ockFS "o".toList) (fun p => .ok (some p)) [] false).err = none := by
  cases h : loadByFolder (xacWorld "d1".toList) exEnv false ockInv ockFS "o".toList with
  | error e =>
    have : (loadByFolder (xacWorld "d1".toList) exEnv false ockInv ockFS "o".toList).toOption.isSome = true := by decide
    rw [h] at this; cases this
  | ok x =>
    refine ⟨x.1, x.2, rfl, by decide, ?_⟩
    have h1 : (loadByFolder (xacWorld "d1".toList) exEnv false ockInv ockFS "o".toList).toOption.any (fun x =>
      (extract (xacWorld "d1".toList) x.1 (subFS ockFS "o".toList) (fun p => .ok (some p)) [] false).err.isNone) = true := by decide
    rw [h] at h1
    exact Option.isNone_iff_eq_none.1 h1

end Gocfl
