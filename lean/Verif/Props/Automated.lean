import Verif.Props.Archive
import Verif.Props.Rounds

/-! C171: the files of a version come out again when extensions have made further versions after it in the same session. -/

namespace Gocfl

section
variable {w : World} {fs : FS} {p N : Nat} {inv : Inv} {s : Session} {r : Round} {rs : List Round} {h : Bytes → Str}

/-- the names of a run are those of its versions -/
theorem cleanRun_names (hs : CleanRun w p rs N inv s) : SafeNames w s := by
  induction rs generalizing N inv s with
  | nil => exact CleanSession.names hs
  | cons r rs ih =>
    obtain ⟨hr, h1, h2⟩ := hs
    have hf := h1.names
    have hg := ih h2
    intro x hx i hi
    unfold Session.uses at hx
    rw [hr] at hx
    rcases List.mem_append.1 hx with hx | hx
    · refine hf x ?_ i hi
      unfold Session.uses
      exact List.mem_append_left _ hx
    · rw [List.flatMap_cons] at hx
      refine hg x ?_ i hi
      exact hx

/-- the folder after a run is the one after its first version and then the others -/
theorem rounds_same (hc : Codec w) (hx : HexHash w) (hL : LowerHash w) (ht : ∀ t, w.time (w.time t) = w.time t)
    (I : Staged w fs p N inv) (hr : s.rounds = r :: rs) (hs : CleanSession w p N inv s.first)
    (hrest : CleanRun w p rs (N + 1) (session w inv s.first).obj.inv (s.follow r rs)) :
    (session w inv s).obj.inv = (session w (session w inv s.first).obj.inv (s.follow r rs)).obj.inv ∧
    ∀ x, mget (applyOps fs (session w inv s).obj.trace) x = mget (applyOps (applyOps fs
        (session w inv s.first).obj.trace) (session w (session w inv s.first).obj.inv (s.follow r rs)).obj.trace) x := by
  obtain ⟨t, f, k1, k2⟩ := session_rounds I.ok.wf hr hs.completes hs.modified
  obtain ⟨i, o, g, D⟩ := deposited hL I.ok hs.names hs.rounds hs.completes hs.modified
  have halg : (session w inv s.first).obj.inv.digestAlg = inv.digestAlg := by
    rw [D.result]; exact (D.scalars I.ok).2.1
  obtain ⟨_, _, a3, _⟩ := staged_run hc hx hL ht (session_staged hc hx hL ht I hs) hrest
  refine ⟨k2.obj.inv, fun x => ?_⟩
  rw [k2.obj.trace, k1, applyOps_append, ← applyOps_append (t := t ++ _), List.append_assoc, applyOps_append (t := t)]
  exact a3.forget _ rfl x

/-- a run leaves the identifier -/
theorem cleanRun_id (hc : Codec w) (hx : HexHash w) (hL : LowerHash w) (ht : ∀ t, w.time (w.time t) = w.time t)
    (I : Staged w fs p N inv) (hs : CleanRun w p rs N inv s) : (session w inv s).obj.inv.id = inv.id := by
  induction rs generalizing fs N inv s with
  | nil =>
    have hs : CleanSession w p N inv s := hs
    obtain ⟨i, o, f, D⟩ := deposited hL I.ok hs.names hs.rounds hs.completes hs.modified
    rw [D.result]; exact (D.scalars I.ok).2.2.2.1
  | cons r rs ih =>
    obtain ⟨hr, h1, h2⟩ := hs
    obtain ⟨i, o, f, D⟩ := deposited hL I.ok h1.names h1.rounds h1.completes h1.modified
    rw [(rounds_same hc hx hL ht I hr h1 h2).1, ih (session_staged hc hx hL ht I h1) h2, D.result]
    exact (D.scalars I.ok).2.2.2.1

/-- the files of a version in the inventory read back -/
theorem versionContent_readBack {a : Inv} {q : RawInv} (R : ReadBack w a q) (v x : Str) (b : Bytes) :
    VersionContent fs (loadedInv p q) v x b ↔ VersionContent fs a v x b := by
  constructor
  · rintro ⟨d, m, c, h1, h2, h3⟩
    exact ⟨d, m, c, (hasFile_readBack R v x d).1 h1, R.manifest.mem_iff.2 h2, h3⟩
  · rintro ⟨d, m, c, h1, h2, h3⟩
    exact ⟨d, m, c, (hasFile_readBack R v x d).2 h1, R.manifest.mem_iff.1 h2, h3⟩

/-- Sessions keep the files of the versions that are there, if no two different contents have one digest. -/
theorem content_kept {fs' : FS} (I : Staged w fs p N inv) (hs : SafeNames w s) (he : (session w inv s).err = none)
    (hh : w.hash inv.digestAlg = some h)
    (hfs : ∀ x, mget fs' x = mget (applyOps fs (session w inv s).obj.trace) x)
    (hD : ∀ d m c, (d, m) ∈ (session w inv s).obj.inv.manifest → c ∈ m → ∃ b hash, mget fs' c = some b ∧
      w.hash (session w inv s).obj.inv.digestAlg = some hash ∧ hash b = toLower d)
    (hcol : ∀ b b', StoredContent fs' (session w inv s).obj.inv b → StoredContent fs' (session w inv s).obj.inv b' → h b = h b' → b = b')
    {v : Str} (hv : v ∈ mkeys inv.versions) (x : Str) (b : Bytes) :
    VersionContent fs' (session w inv s).obj.inv v x b ↔ VersionContent fs inv v x b := by
  have hS := invOk_sound I.ok
  obtain ⟨m, hm, _, _, kalg, kver, kman⟩ := session_kept hS hs he
  have kfile : ∀ c, Listed inv c → mget fs' c = mget fs c := fun c hp => by
    rw [hfs]
    exact mget_applyOps_ne (fun op hop hc => session_not_old hS.wf hS.cdir hs hop (by rw [hc]; exact hS.files c hp))
  have hhas : ∀ d, HasFile (session w inv s).obj.inv v x d ↔ HasFile inv v x d := by
    intro d
    rw [hasFile_iff hm.wf.1.nodup, hasFile_iff I.ok.wf.1.nodup, kver v hv]
  constructor
  · rintro ⟨d, m, c, k1, k2, k3, k4⟩
    have hd := (hhas d).1 k1
    obtain ⟨ver, ps, o1, o2, o3⟩ := id hd
    obtain ⟨m0, hm0⟩ := I.ok.covered.1 v ver d o1 (mem_mkeys_of_mem o2)
    obtain ⟨c0, hc0⟩ := List.exists_mem_of_ne_nil _ (I.ok.covered.2 d m0 hm0)
    obtain ⟨b0, hash, g1, g2, g3⟩ := I.files.content d m0 c0 hm0 hc0
    rw [hh] at g2; cases g2
    obtain ⟨b1, hash, g4, g5, g6⟩ := hD d m c k2 k3
    rw [kalg, hh] at g5; cases g5
    rw [k4] at g4; cases g4
    obtain ⟨ext, h4⟩ := kman d m0 (mget_of_mem I.ok.keys.1 hm0)
    have := hcol b b0 ⟨d, m, c, k2, k3, k4⟩ ⟨d, m0 ++ ext, c0, mem_of_mget h4, List.mem_append_left _ hc0, by
      rw [kfile c0 ⟨d, m0, hm0, hc0⟩]; exact g1⟩ (g6.trans g3.symm)
    subst this
    exact ⟨d, m0, c0, hd, hm0, hc0, g1⟩
  · rintro ⟨d, m, c, k1, k2, k3, k4⟩
    obtain ⟨ext, h4⟩ := kman d m (mget_of_mem I.ok.keys.1 k2)
    exact ⟨d, m ++ ext, c, (hhas d).2 k1, mem_of_mget h4, List.mem_append_left _ k3, by rw [kfile c ⟨d, m, k2, k3⟩]; exact k4⟩

/-- what is in an object after a session with automated versions -/
structure Automated (w : World) (h : Bytes → Str) (fs : FS) (p N : Nat) (inv : Inv) (s : Session) (files : List InFile) (fs' : FS)
    (q : RawInv) : Prop where
  valid : ValidObject w fs' p (N + 1 + s.rounds.length) q
  id : q.inv.id = inv.id
  /-- the version of the user has the files of the user in place of what was there … -/
  own : Yields w (loadedInv p q) fs' (verName (p : Int) ((N + 1 : Nat) : Int)) (After w s files (VersionContent fs inv inv.head))
  /-- … and the versions before have what they had -/
  old : ∀ k, 0 < k → k ≤ N → Yields w (loadedInv p q) fs' (verName (p : Int) (k : Int))
    (VersionContent fs inv (verName (p : Int) (k : Int)))

/-- contents of the object with one digest are the same -/
def NoCollision (h : Bytes → Str) (fs : FS) (inv : Inv) : Prop :=
  ∀ b b', StoredContent fs inv b → StoredContent fs inv b' → h b = h b' → b = b'

/-- **C171**, at the object: what is added comes out of its version, whatever versions extensions have made after it. -/
theorem C171_object_partial {dup : Bool} {files : List InFile} (hc : Codec w) (hx : HexHash w) (hL : LowerHash w)
    (ht : ∀ t, w.time (w.time t) = w.time t) (I : Intact w fs p N inv) (C : Clear inv) (ha : AddsFiles s.first dup files)
    (hh : w.hash inv.digestAlg = some h) (hg : GoodUpdate w h dup fs inv N s.first files)
    (he : (session w inv s.first).err = none) (hwid : 0 < p → (fmtNat (N + 1)).length ≤ p) (hr : s.rounds = r :: rs)
    (hrest : CleanRun w p rs (N + 1) (session w inv s.first).obj.inv (s.follow r rs))
    (hcol : NoCollision h (applyOps fs (session w inv s).obj.trace) (session w inv s).obj.inv) :
    (session w inv s).err = none ∧
    ∃ q, Automated w h fs p N inv s files (applyOps fs (session w inv s).obj.trace) q := by
  have hcl := goodUpdate_clean hx hL I.ok C ha hh hg he hwid
  have hrun : CleanRun w p s.rounds N inv s := by rw [hr]; exact ⟨hr, hcl, hrest⟩
  obtain ⟨e0, q, hq, R, V, J⟩ := C165_rounds_valid hc hx hL ht I hrun
  obtain ⟨r1, U⟩ := C161_object_partial hc hx hL ht I C ha hh hg he hwid
  obtain ⟨r1', _, R1, V1, _⟩ := C80_session_valid hc hx hL ht I hcl
  have hr1 : r1' = r1 := by
    obtain ⟨b, _, _, c1, c2, _⟩ := V1.stored
    obtain ⟨b', _, _, d1, d2, _⟩ := U.valid.stored
    rw [c1] at d1; cases d1
    rw [c2] at d2; cases d2
    rfl
  subst hr1
  obtain ⟨hinv, hsame⟩ := rounds_same hc hx hL ht I.staged hr hcl hrest
  have S1 := session_staged hc hx hL ht I.staged hcl
  have e1 := (staged_run hc hx hL ht S1 hrest).1
  obtain ⟨i, o, f0, D⟩ := deposited hL I.ok hcl.names hcl.rounds hcl.completes hcl.modified
  have halg1 : (session w inv s.first).obj.inv.digestAlg = inv.digestAlg := by
    rw [D.result]; exact (D.scalars I.ok).2.1
  obtain ⟨m, hm, _, _, kalg, kver, _⟩ := session_kept (invOk_sound S1.ok) (cleanRun_names hrest) e1
  generalize hfs' : applyOps fs (session w inv s).obj.trace = fs' at *
  obtain ⟨g1, _, g3, _, _⟩ := R.scalars
  have hD : ∀ d m c, (d, m) ∈ (session w inv s).obj.inv.manifest → c ∈ m → ∃ b hash, mget fs' c = some b ∧
      w.hash (session w inv s).obj.inv.digestAlg = some hash ∧ hash b = toLower d := by
    intro d m c h1 h2
    rw [g3]
    exact J.files.content d m c (R.manifest.mem_iff.1 h1) h2
  have hh1 : w.hash (session w inv s.first).obj.inv.digestAlg = some h := by rw [halg1]; exact hh
  have hhq : w.hash (loadedInv p q).digestAlg = some h := by
    show w.hash q.inv.digestAlg = some h
    rw [← g3, hinv, kalg]; exact hh1
  rw [hinv] at hD hcol R
  -- the files of the versions up to that of the user are those after it
  have hcon : ∀ v ∈ mkeys (session w inv s.first).obj.inv.versions, ∀ x b,
      VersionContent fs' (loadedInv p q) v x b ↔ VersionContent (applyOps fs (session w inv s.first).obj.trace) (loadedInv p r1') v x b := by
    intro v hv x b
    rw [versionContent_readBack R, versionContent_readBack R1]
    exact content_kept S1 (cleanRun_names hrest) e1 hh1 hsame hD hcol hv x b
  have hhas : ∀ v ∈ mkeys (session w inv s.first).obj.inv.versions, ∀ x d,
      HasFile (loadedInv p q) v x d ↔ HasFile (loadedInv p r1') v x d := by
    intro v hv x d
    have e : HasFile q.inv v x d ↔ HasFile r1'.inv v x d := by
      rw [hasFile_readBack R, hasFile_readBack R1, hasFile_iff hm.wf.1.nodup, hasFile_iff S1.ok.wf.1.nodup, kver v hv]
    exact e
  have hkey : ∀ k, 0 < k → k ≤ N + 1 → verName (p : Int) (k : Int) ∈ mkeys (session w inv s.first).obj.inv.versions := by
    intro k h1 h2
    exact S1.ok.wf.1.mem_keys.2 ⟨k, h1, h2, by rw [S1.ok.pad]⟩
  have hyield : ∀ k (E : Str → Bytes → Prop), 0 < k → k ≤ N + 1 → (∀ x b, VersionContent (applyOps fs (session w inv s.first).obj.trace)
      (loadedInv p r1') (verName (p : Int) (k : Int)) x b ↔ E x b) → Yields w (loadedInv p q) fs' (verName (p : Int) (k : Int)) E := by
    intro k E h1 h2 hE xp wm hxp
    have hv := hkey k h1 h2
    have hsel := selectVersion_verName (loadedInv p q) (p : Int) k
    obtain ⟨ver, hver⟩ := mem_mkeys_iff.1 (J.ok.wf.1.mem_keys.2 ⟨k, h1, by omega, rfl⟩)
    have hver : (verName (p : Int) (k : Int), ver) ∈ (loadedInv p q).versions := hver
    have hlow : ∀ d ∈ mkeys ver.state, toLower d = d := by
      intro d hd
      obtain ⟨ps, hps⟩ := mem_mkeys_iff.1 hd
      obtain ⟨ver1, n1, _, _, _, _, n2⟩ := R.version' _ ver hver
      have n3 := mget_of_mem hm.wf.1.nodup n1
      rw [kver _ hv] at n3
      obtain ⟨m1, hm1⟩ := S1.ok.covered.1 _ ver1 d (mem_of_mget n3) (mem_mkeys_of_mem (n2.mem_iff.2 hps))
      exact U.clear.lower d (mem_mkeys_of_mem (R1.manifest.mem_iff.1 hm1))
    have hcol' : ∀ b b', StoredContent fs' (loadedInv p q) b → StoredContent fs' (loadedInv p q) b' → h b = h b' → b = b' := by
      rintro b b' ⟨d, m, c, a1, a2⟩ ⟨d', m', c', b1, b2⟩
      exact hcol b b' ⟨d, m, c, R.manifest.mem_iff.2 a1, a2⟩ ⟨d', m', c', R.manifest.mem_iff.2 b1, b2⟩
    have hp : ∀ x, HasPath (loadedInv p q) (verName (p : Int) (k : Int)) x → ∃ b, E x b := by
      rintro x ⟨d, hd⟩
      obtain ⟨ver', ps, o1, o2, o3⟩ := id hd
      obtain ⟨m, hm⟩ := J.ok.covered.1 _ ver' d o1 (mem_mkeys_of_mem o2)
      obtain ⟨c, hcm⟩ := List.exists_mem_of_ne_nil _ (J.ok.covered.2 d m hm)
      obtain ⟨b, hash, g1, _, _⟩ := J.files.content d m c hm hcm
      exact ⟨b, (hE x b).1 ((hcon _ hv x b).1 ⟨d, m, c, hd, hm, hcm, g1⟩)⟩
    obtain ⟨x1, x2⟩ := version_extract_of J hhq hcol' (v := verName (p : Int) (k : Int)) (ver := ver) hlow (by
      rw [hsel]
      intro x d d' y1 y2
      exact U.clear.oneDigest _ x d d' ((hhas _ hv x d).1 y1) ((hhas _ hv x d').1 y2)) (by
      rw [hsel]; exact mget_of_mem J.ok.wf.1.nodup hver) (xp := xp) (by
      rw [hsel]
      exact ⟨fun x hx => hxp.total x (hp x hx), fun x x' y y1 y2 => hxp.injective x x' y (hp x y1) (hp x' y2)⟩) wm
    refine ⟨x1, fun x b hx0 => ?_⟩
    rw [x2 x b hx0, hsel]
    simp only [hcon _ hv, hE]
  have hid : q.inv.id = inv.id := g1.symm.trans (cleanRun_id hc hx hL ht I.staged hrun)
  refine ⟨e0, q, V, hid, ?_, ?_⟩
  · refine hyield (N + 1) _ (Nat.succ_pos N) (Nat.le_refl _) (fun x b => ?_)
    have := U.head x b
    rw [U.valid.inv.head] at this
    exact this
  · intro k h1 h2
    refine hyield k _ h1 (by omega) (fun x b => ?_)
    exact U.old _ (I.ok.wf.1.mem_keys.2 ⟨k, h1, h2, by rw [I.ok.pad]⟩) x b

/-- **C171.** `update` in a storage with extensions that make versions of their own: the object opens, is valid with the
version of the user and those of the extensions, and the version of the user comes out with the files of the update in place
of what was there; so do the versions before. -/
theorem C171_update_partial {dup : Bool} {files : List InFile} {env : Env} {plain : Bool} {blank : Inv} {ls : List (Str → Res Str)}
    {a : CreateArgs} {id : Str} {f0 : List Fnd} (hc : Codec w) (hx : HexHash w) (hL : LowerHash w)
    (ht : ∀ t, w.time (w.time t) = w.time t) (hl : loadByID w env plain blank ls fs id = .ok (inv, f0)) (hid : inv.id = id)
    (I : Intact w (subFS fs (rootPath ls id).1) p N inv) (C : Clear inv) (ha : AddsFiles s.first dup files)
    (hh : w.hash inv.digestAlg = some h) (hg : GoodUpdate w h dup (subFS fs (rootPath ls id).1) inv N s.first files)
    (he : (session w inv s.first).err = none) (hwid : 0 < p → (fmtNat (N + 1)).length ≤ p) (hr : s.rounds = r :: rs)
    (hrest : CleanRun w p rs (N + 1) (session w inv s.first).obj.inv (s.follow r rs))
    (hcol : NoCollision h (applyOps (subFS fs (rootPath ls id).1) (session w inv s).obj.trace) (session w inv s).obj.inv) :
    (updateCmd w env plain blank ls a fs id s).2 = none ∧
    ∃ q f, loadByID w env plain blank ls (applyOps fs (updateCmd w env plain blank ls a fs id s).1) id = .ok (loadedInv p q, f) ∧
      q.inv.id = id ∧
      Automated w h (subFS fs (rootPath ls id).1) p N inv s files
        (subFS (applyOps fs (updateCmd w env plain blank ls a fs id s).1) (rootPath ls id).1) q := by
  have hroot : (rootPath ls id).2 = false := by
    unfold loadByID at hl
    split at hl
    · cases hl
    · rename_i hr; exact Bool.eq_false_iff.2 hr
  have hex : objectExists ls fs id = .ok true := by
    cases hx : objectExists ls fs id with
    | error e => unfold objectExists at hx; rw [hroot] at hx; cases hx
    | ok b =>
      have : b = true := by
        rw [C94_exists_exact _ _ _ _ hx]
        obtain ⟨num, _, hd, _⟩ := I.decl
        exact ⟨_, _, by rw [← mget_subFS]; exact hd⟩
      rw [this]
  have hupd : updateCmd w env plain blank ls a fs id s = inFolder (rootPath ls id).1 (session w inv s) := by
    unfold updateCmd addObjectByPath
    simp only [hex, hl]
  rw [hupd]
  have hsub : subFS (applyOps fs (inFolder (rootPath ls id).1 (session w inv s)).1) (rootPath ls id).1 =
      applyOps (subFS fs (rootPath ls id).1) (session w inv s).obj.trace := subFS_applyOps_lift _ _ _
  obtain ⟨h1, q, A⟩ := C171_object_partial hc hx hL ht I C ha hh hg he hwid hr hrest hcol
  rw [← hsub] at A
  obtain ⟨f, hload⟩ := loadByID_valid env plain blank hroot A.valid
  exact ⟨h1, q, f, hload, A.id.trans hid, A⟩

end

/-- **C171, full statement** (false): the version of the user is stored and comes out, whatever the extensions do after it. -/
def C171_full : Prop :=
  ∀ (w : World) (fs : FS) (p N : Nat) (inv : Inv) (s : Session) (h : Bytes → Str) (dup : Bool) (files : List InFile),
    Codec w → HexHash w → LowerHash w → (∀ t, w.time (w.time t) = w.time t) → Intact w fs p N inv → Clear inv →
    AddsFiles s.first dup files → w.hash inv.digestAlg = some h → GoodUpdate w h dup fs inv N s.first files →
    (session w inv s.first).err = none → (0 < p → (fmtNat (N + 1)).length ≤ p) →
    NoCollision h (applyOps fs (session w inv s).obj.trace) (session w inv s).obj.inv →
    ∃ q, StoredInv w (applyOps fs (session w inv s).obj.trace) q ∧
      Yields w (loadedInv p q) (applyOps fs (session w inv s).obj.trace) (verName (p : Int) ((N + 1 : Nat) : Int))
        (After w s files (VersionContent fs inv inv.head))

/-! ## Cases -/

/-- the folder of the object `a` of the cases of C162 -/
noncomputable abbrev auFs : FS :=
  applyOps (applyOps [] (initObject exArgs [] "a".toList).1) (session exKeep lifeInv0 (rtSession rtFiles)).obj.trace

theorem au_archived : Archived exKeep rtHash exArgs "a".toList auFs arInv1 (histOf [replList rtFiles []]) := by
  have hh := (archiveRun_holds (codecWorld_codec _) (codecWorld_hex _) exKeep_lower (fun _ => rfl) (a := exArgs) rtHash_eq ar_run1).1 "a".toList
    (by rw [if_pos rfl]; exact List.cons_ne_nil _ _)
  rw [if_pos rfl, ar_hist1] at hh
  obtain ⟨_, r, O, A⟩ := hh
  obtain ⟨b, _, _, c1, c2, _⟩ := ar_valid1.stored
  obtain ⟨b', _, _, d1, d2, _⟩ := O.stored
  rw [c1] at d1; cases d1
  have d2 : exKeep.dec b = some r := d2
  rw [c2] at d2; cases d2
  rw [ar_sub1] at A
  exact A

/-- `e` is changed, `g` is new; then an extension adds a file, and another renames one -/
def auSession : Session := { rtSession arMore with rounds :=
  [⟨⟨"automated version".toList, "gocfl".toList, [], []⟩, [], [.add "h".toList [] [5, 5, 5] true], []⟩,
   ⟨⟨"automated version".toList, "gocfl".toList, [], []⟩, [], [.rename "g".toList "i".toList (rtHash [7])], [.ext "x".toList [1]]⟩] }

theorem au_rest : CleanRun exKeep 0 (auSession.rounds.drop 1) 2 (session exKeep arInv1 auSession.first).obj.inv
    (auSession.follow (auSession.rounds.headD ⟨⟨[], [], [], []⟩, [], [], []⟩) (auSession.rounds.drop 1)) := by
  refine ⟨rfl, ⟨?_, rfl, by decide +kernel, by decide +kernel, by decide +kernel,
    headPaths_of (p := 0) (N := 3) (validInv_of (by decide +kernel)), by decide⟩, ⟨?_, rfl, by decide +kernel, by decide +kernel, by decide +kernel,
    headPaths_of (p := 0) (N := 4) (validInv_of (by decide +kernel)), by decide⟩⟩
  · intro x hx i hi
    have : x = ("h".toList, []) := by
      simpa [Session.uses, Session.first, Session.follow, auSession, rtSession, exSession, callsUses, Call.uses] using hx
    subst this
    cases hi
    exact ⟨0, by decide⟩
  · intro x hx
    simp [Session.uses, Session.follow, auSession, callsUses, Call.uses] at hx

theorem noCollision_of_list {h : Bytes → Str} {fs : FS} {inv : Inv} (L : List Bytes)
    (h1 : ∀ e ∈ inv.manifest, ∀ c ∈ e.2, ∀ b, mget fs c = some b → b ∈ L)
    (h2 : ∀ b ∈ L, ∀ b' ∈ L, h b = h b' → b = b') : NoCollision h fs inv := by
  rintro b b' ⟨d, m, c, k1, k2, k3⟩ ⟨d', m', c', l1, l2, l3⟩
  exact h2 b (h1 _ k1 c k2 b k3) b' (h1 _ l1 c' l2 b' l3)

/-- the contents of the files of the manifest -/
def storedList (fs : FS) (inv : Inv) : List (Option Bytes) := inv.manifest.flatMap (fun e => e.2.map (mget fs))

theorem noCollision_of_stored {h : Bytes → Str} {fs : FS} {inv : Inv} (L : List Bytes)
    (h1 : ∀ x ∈ storedList fs inv, x = none ∨ ∃ b ∈ L, x = some b)
    (h2 : ∀ b ∈ L, ∀ b' ∈ L, h b = h b' → b = b') : NoCollision h fs inv := by
  refine noCollision_of_list L (fun e he c hc b hb => ?_) h2
  rcases h1 (mget fs c) (List.mem_flatMap.2 ⟨e, he, List.mem_map.2 ⟨c, hc, rfl⟩⟩) with g | ⟨b', g1, g2⟩
  · rw [hb] at g; cases g
  · rw [hb] at g2; cases g2; exact g1

/-- the hypotheses of C171 are met: the user's version and two of extensions -/
theorem au_case : ∃ q, Automated exKeep rtHash auFs 0 1 arInv1 auSession arMore
    (applyOps auFs (session exKeep arInv1 auSession).obj.trace) q := by
  have A := au_archived
  refine (C171_object_partial (codecWorld_codec _) (codecWorld_hex _) exKeep_lower (fun _ => rfl) A.intact A.clear (s := auSession)
    (rtSession_adds arMore).addsFiles A.hash ((deposit_of_list ar_fit3 ar_placed3).good A.toInArchive) (by decide +kernel)
    (fun h0 => absurd h0 (Nat.lt_irrefl 0)) rfl au_rest ?_).2
  exact noCollision_of_stored [[1, 2], [7], [9, 9, 9, 9], [5, 5, 5]] (by decide +kernel) (by decide)

/-- the extension fails after the update -/
def auFailing : Session := { rtSession arMore with rounds :=
  [⟨⟨"automated version".toList, "gocfl".toList, [], []⟩, [], [.reader [] [] []], []⟩] }

/-- **C171 fails** if an extension does: the version of the user is not in the inventory, and cannot be extracted. -/
theorem C171_full_fails : ¬ C171_full := by
  intro hf
  have A := au_archived
  obtain ⟨q, ⟨b, _, _, h1, h2, _⟩, hy⟩ := hf exKeep auFs 0 1 arInv1 auFailing rtHash true arMore (codecWorld_codec _) (codecWorld_hex _) exKeep_lower
    (fun _ => rfl) A.intact A.clear (rtSession_adds arMore).addsFiles A.hash ((deposit_of_list ar_fit3 ar_placed3).good A.toInArchive) (by decide +kernel)
    (fun h0 => absurd h0 (Nat.lt_irrefl 0)) (noCollision_of_stored [[1, 2], [7], [9, 9, 9, 9], [5, 5, 5]] (by decide +kernel) (by decide))
  have hroot : mget (applyOps auFs (session exKeep arInv1 auFailing).obj.trace) rootInvPath = mget auFs rootInvPath :=
    mget_applyOps_ne (by decide +kernel)
  rw [hroot] at h1
  have hv := ar_valid1
  rw [ar_sub1] at hv
  obtain ⟨b', _, _, d1, d2, _⟩ := hv.stored
  rw [h1] at d1; cases d1
  rw [h2] at d2; cases d2
  have := (hy rtXp false (rtXp_apart _)).1
  revert this
  decide +kernel

end Gocfl
