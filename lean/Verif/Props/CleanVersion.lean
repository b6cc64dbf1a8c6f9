import Verif.Props.Versions
import Verif.Props.Crash
import Verif.Model.StoreLemmas

/-!
# C87: versions without changes are not stored

`Clean` takes back a version that nothing was done in.  The theorems say that it does exactly that — except for the
first version — and that no session ever gets there: `EndUpdate` and `Close` call it only if the object was modified,
when it does nothing, and the mark is never taken back when a further version is opened.
-/

namespace Gocfl

theorem mdel_fresh {V : Type} {l : AMap Str V} {k : Str} (h : k ∉ mkeys l) : mdel l k = l := by
  unfold mdel
  rw [List.filter_eq_self]
  intro e he
  have : e.1 ≠ k := fun hk => h (hk ▸ mem_mkeys_of_mem (v := e.2) he)
  simp [this]

theorem mdel_append_last {V : Type} {l : AMap Str V} {k : Str} (v : V) (h : k ∉ mkeys l) : mdel (l ++ [(k, v)]) k = l := by
  have := mdel_fresh h
  unfold mdel at this ⊢
  rw [List.filter_append, this]
  simp

theorem getLastVersion_gapFree {inv : Inv} {n : Nat} (h : GapFree inv n) (hn : 0 < n) : getLastVersion inv = inv.head := by
  have hv : inv.versions ≠ [] := by
    intro he
    have := h.head_mem hn
    rw [he] at this
    cases this
  have hl := C20_version_listing h
  rw [h.head_eq hn]
  unfold getVersionStrings at hl
  unfold getLastVersion
  rw [if_neg hv] at hl ⊢
  cases hm : (mkeys inv.versions).mapM vNumber with
  | none =>
    rw [hm] at hl
    have := congrArg List.length hl
    simp at this
    omega
  | some nums =>
    rw [hm] at hl
    simp only at hl ⊢
    obtain ⟨m, rfl⟩ : ∃ m, n = m + 1 := ⟨n - 1, by omega⟩
    rw [List.range_succ, List.map_append] at hl
    have hne : sortInt nums ≠ [] := by
      intro he
      rw [he] at hl
      have := congrArg List.length hl
      simp at this
    obtain ⟨l, x, hx⟩ : ∃ l x, sortInt nums = l ++ [x] := ⟨_, _, (List.dropLast_append_getLast hne).symm⟩
    rw [hx, List.map_append] at hl
    have := (List.append_inj' hl rfl).2
    rw [hx]
    simp only [List.getLastD_concat]
    simpa using this

/-! ## Specification -/

/-- Versions `v` and `v'` have the same files with the same content. -/
def SameFiles (inv : Inv) (v v' : Str) : Prop := ∀ p d, HasFile inv v p d ↔ HasFile inv v' p d

/-- **C87, in full**: whatever an object is updated with, each version it then has in addition differs from the one
before. -/
def C87_full : Prop :=
  ∀ (w : World) (inv : Inv) (n : Nat) (s : Session) (N k : Nat), WF inv n → inv.modified = false →
    (session w inv s).err = none → GapFree (session w inv s).obj.inv N → (session w inv s).obj.inv.modified = true →
    1 < k → n < k → k ≤ N →
    ¬ SameFiles (session w inv s).obj.inv (verName inv.paddingLength (k : Int)) (verName inv.paddingLength ((k - 1 : Nat) : Int))

/-- What `Clean` is for: a version opened and not used is taken back, and nothing else. -/
theorem C87_clean_undoes {inv i : Inv} {n : Nat} (h : GapFree inv n) (hk : MapKeysOk inv) (hn : 0 < n) {m u a t : Str}
    (hi : newVersion inv m u a t = .ok i) (hm : inv.modified = false) : clean i = .ok { inv with writeable := true } := by
  obtain ⟨s, _, _, he⟩ := newVersion_gapFree h hk m u a t
  rw [he] at hi
  cases hi
  have hne : verName inv.paddingLength ((n + 1 : Nat) : Int) ≠ "v1".toList := by
    intro e
    have h1 : verName 0 ((1 : Nat) : Int) = "v1".toList := by decide
    rw [← h1] at e
    have := congrArg headNumber e
    rw [headNumber_verName _ (by omega), headNumber_verName _ (by omega)] at this
    have := Option.some.inj this
    omega
  have hl : ∀ i : Inv, i.versions = inv.versions → getLastVersion i = inv.head := by
    intro i hi
    rw [← getLastVersion_gapFree h hn]
    unfold getLastVersion
    rw [hi]
  unfold clean
  simp only [hm, Bool.false_eq_true, if_false, hne]
  rw [mdel_append_last _ h.next_not_mem]
  generalize hi : (Inv.mk _ _ _ _ _ _ _ _ _ _ _ _) = i
  have hi' : getLastVersion i = inv.head := hl i (by rw [← hi])
  rw [hi']
  cases hh : inv.head with
  | nil => exact absurd (h.head_nil_iff.1 hh) (by omega)
  | cons c r => rfl

/-- The first version is an exception: it stays when version names are not padded, and when they are there is an
error. -/
theorem C87_clean_first {inv i : Inv} (h : GapFree inv 0) (hk : MapKeysOk inv) {m u a t : Str}
    (hi : newVersion inv m u a t = .ok i) (hm : inv.modified = false) :
    clean i = if inv.paddingLength ≤ 0 then .ok i else .error (.error "cannot get last version") := by
  obtain ⟨s, _, _, he⟩ := newVersion_gapFree h hk m u a t
  rw [he] at hi
  cases hi
  have hv : inv.versions = [] := by
    have := h.1.length_eq
    simpa [mkeys] using this
  unfold clean
  simp only [hm, Bool.false_eq_true, if_false]
  by_cases hp : inv.paddingLength ≤ 0
  · have : verName inv.paddingLength ((0 + 1 : Nat) : Int) = "v1".toList := by
      unfold verName
      rw [if_pos hp]
      decide
    rw [if_pos this, if_pos hp]
  · have : verName inv.paddingLength ((0 + 1 : Nat) : Int) ≠ "v1".toList := by
      unfold verName
      rw [if_neg hp]
      intro e
      have h0 : '0' = '1' := (List.cons.inj (List.cons.inj e).2).1
      exact absurd h0 (by decide)
    rw [if_neg this, if_neg hp, hv, mdel_append_last _ (by simp)]
    rfl

/-! ## Sessions never get there -/

theorem calls_wf {w : World} {o : Obj} {n : Nat} (h : WF o.inv n) (cs : List Call) :
    WF (runCalls w o cs).obj.inv n ∧ (runCalls w o cs).obj.inv.writeable = o.inv.writeable ∧
    (o.inv.modified = true → (runCalls w o cs).obj.inv.modified = true) := by
  have hs := runCalls_step (w := w) (U := fun _ _ => True) (o := o) cs (fun _ _ _ _ => trivial)
  obtain ⟨ops, hr, hc⟩ := hs.inv
  have := run_wf h hr
  rw [hc] at this
  exact ⟨this, hs.headOnly.wr, hs.modified⟩

theorem echo_wf {w : World} {o : Obj} {n : Nat} (h : WF o.inv n) :
    WF (if o.echo then objEcho w o else ok o).obj.inv n ∧
    (if o.echo then objEcho w o else ok o).obj.inv.writeable = o.inv.writeable ∧
    (o.inv.modified = true → (if o.echo then objEcho w o else ok o).obj.inv.modified = true) := by
  have hs := echoIf_step (w := w) (U := fun _ _ => True) (o := o)
  obtain ⟨ops, hr, hc⟩ := hs.inv
  have := run_wf h hr
  rw [hc] at this
  exact ⟨this, hs.headOnly.wr, hs.modified⟩

theorem startUpdate_wf {w : World} {o : Obj} {n : Nat} (h : WF o.inv n) {v : VInfo} {e : Bool} {cs : List Call}
    (he : (startUpdate w o v e cs).err = none) :
    WF (startUpdate w o v e cs).obj.inv (n + 1) ∧ (startUpdate w o v e cs).obj.inv.writeable = true ∧
    (o.inv.modified = true → (startUpdate w o v e cs).obj.inv.modified = true) := by
  unfold startUpdate withInv at he ⊢
  cases hi : newVersion o.inv v.msg v.userName v.userAddress v.now with
  | error er => rw [hi] at he; exact absurd he (by simp [Out.andThen])
  | ok i =>
    have hw := newVersion_ok_gapFree h.1 h.2 hi
    have hf := newVersion_frame hi
    simp only [hi] at he ⊢
    rw [andThen_none rfl]
    have := calls_wf (w := w) (o := { o with inv := i, echo := e }) (n := n + 1) hw cs
    exact ⟨this.1, this.2.1.trans hf.2.2.2.1, fun hm => this.2.2 (hf.2.2.2.2.2.2.2.1.trans hm)⟩

theorem endUpdate_wf {w : World} {rounds : List Round} {o : Obj} {n : Nat} {after : List Call} (h : WF o.inv n)
    (hw : o.inv.writeable = true) (hm : o.inv.modified = true) (he : (endUpdate w o after rounds).err = none) :
    WF (endUpdate w o after rounds).obj.inv (n + rounds.length) ∧
    (endUpdate w o after rounds).obj.inv.modified = true := by
  induction rounds generalizing o n after with
  | nil =>
    unfold endUpdate at he ⊢
    rw [if_neg (by rw [hw]; simp), if_neg (by rw [hm]; simp)] at he ⊢
    obtain ⟨e1, he⟩ := andThen_split he
    obtain ⟨e2, he⟩ := andThen_split he
    obtain ⟨e3, he⟩ := andThen_split he
    have h1 := echo_wf (w := w) h
    rw [andThen_none e1]
    have h2 := calls_wf (w := w) h1.1 after
    rw [andThen_none e2]
    have hm2 := h2.2.2 (h1.2.2 hm)
    unfold withInv at e3 he ⊢
    rw [clean_modified hm2] at e3 he ⊢
    rw [andThen_none rfl, storeInventory_trace.1]
    exact ⟨h2.1, hm2⟩
  | cons r rs ih =>
    unfold endUpdate at he ⊢
    rw [if_neg (by rw [hw]; simp), if_neg (by rw [hm]; simp)] at he ⊢
    obtain ⟨e1, he⟩ := andThen_split he
    obtain ⟨e2, he⟩ := andThen_split he
    obtain ⟨e3, he⟩ := andThen_split he
    obtain ⟨e4, he⟩ := andThen_split he
    obtain ⟨e5, he⟩ := andThen_split he
    obtain ⟨e6, he⟩ := andThen_split he
    have h1 := echo_wf (w := w) h
    have h2 := calls_wf (w := w) h1.1 after
    have hm2 := h2.2.2 (h1.2.2 hm)
    rw [andThen_none e1, andThen_none e2, andThen_none e3, andThen_none e4, andThen_none e5, andThen_none e6]
    have h3 : (storeInventory w (withInv (runCalls w (if o.echo then objEcho w o else ok o).obj after).obj
        (clean (runCalls w (if o.echo then objEcho w o else ok o).obj after).obj.inv)).obj true false).obj.inv =
        (runCalls w (if o.echo then objEcho w o else ok o).obj after).obj.inv := by
      rw [storeInventory_trace.1]
      unfold withInv
      rw [clean_modified hm2]
    have h4 := startUpdate_wf (w := w) (n := n) (h3.symm ▸ h2.1) e5
    have hm4 := h4.2.2 (h3.symm ▸ hm2)
    have h5 := calls_wf (w := w) h4.1 r.body
    have := ih h5.1 (h5.2.1.trans h4.2.1) (h5.2.2 hm4) he
    rw [List.length_cons, show n + (rs.length + 1) = n + 1 + rs.length by omega]
    exact this

theorem closeObj_inv {w : World} {o : Obj} {exts : List (Str × Bytes)} : (closeObj w o exts).obj.inv = o.inv := by
  unfold closeObj
  split
  · rfl
  · split
    · rfl
    · rename_i _ hm
      have hm : o.inv.modified = true := by simpa using hm
      unfold withInv
      rw [clean_modified hm]
      rw [andThen_none rfl]
      have := storeInventory_trace (w := w) (o := { o with inv := o.inv }) (v := false) (r := true)
      unfold Out.andThen
      split
      · exact this.1
      · exact this.1

/-- **C87, partial: which versions a session leaves.**  A session that succeeds and has changed anything at all
leaves exactly one version more, and one for each automatic version an extension asks for — whatever these contain. -/
theorem C87_versions_counted_partial {w : World} {inv : Inv} {n : Nat} (h : WF inv n) {s : Session}
    (he : (session w inv s).err = none) (hm : (session w inv s).obj.inv.modified = true) :
    WF (session w inv s).obj.inv (n + 1 + s.rounds.length) := by
  unfold session at he hm ⊢
  obtain ⟨e1, he2⟩ := andThen_split he
  rw [andThen_none e1, closeObj_inv] at hm ⊢
  unfold sessionOpen at e1 hm ⊢
  obtain ⟨f1, f⟩ := andThen_split e1
  obtain ⟨f2, f3⟩ := andThen_split f
  rw [andThen_none f1, andThen_none f2] at hm ⊢
  have h1 := startUpdate_wf (w := w) (o := ⟨inv, [], false, []⟩) h f1
  have h2 := calls_wf (w := w) h1.1 s.body
  by_cases hmo : (runCalls w (startUpdate w ⟨inv, [], false, []⟩ s.info s.echo s.before).obj s.body).obj.inv.modified = true
  · exact (endUpdate_wf h2.1 (h2.2.1.trans h1.2.1) hmo f3).1
  · rw [endUpdate_unmodified (by simpa using hmo)] at hm
    exact absurd hm hmo

theorem endUpdate_last_empty {w : World} {rs : List Round} {r : Round} (hb : r.before = []) (hc : r.body = [])
    (ha : r.after = []) {o : Obj} {n : Nat} {after : List Call} (h : WF o.inv n) (hw : o.inv.writeable = true)
    (hm : o.inv.modified = true) (he : (endUpdate w o after (rs ++ [r])).err = none) :
    ∃ i, WF i (n + rs.length) ∧ newVersion i r.info.msg r.info.userName r.info.userAddress r.info.now =
      .ok (endUpdate w o after (rs ++ [r])).obj.inv := by
  induction rs generalizing o n after with
  | nil =>
    rw [List.nil_append] at he ⊢
    unfold endUpdate at he ⊢
    rw [if_neg (by rw [hw]; simp), if_neg (by rw [hm]; simp)] at he ⊢
    obtain ⟨e1, he⟩ := andThen_split he
    obtain ⟨e2, he⟩ := andThen_split he
    obtain ⟨e3, he⟩ := andThen_split he
    obtain ⟨e4, he⟩ := andThen_split he
    obtain ⟨e5, he⟩ := andThen_split he
    obtain ⟨e6, he⟩ := andThen_split he
    have h1 := echo_wf (w := w) h
    have h2 := calls_wf (w := w) h1.1 after
    have hm2 := h2.2.2 (h1.2.2 hm)
    rw [andThen_none e1, andThen_none e2, andThen_none e3, andThen_none e4, andThen_none e5, andThen_none e6]
    have h3 : (storeInventory w (withInv (runCalls w (if o.echo then objEcho w o else ok o).obj after).obj
        (clean (runCalls w (if o.echo then objEcho w o else ok o).obj after).obj.inv)).obj true false).obj.inv =
        (runCalls w (if o.echo then objEcho w o else ok o).obj after).obj.inv := by
      rw [storeInventory_trace.1]
      unfold withInv
      rw [clean_modified hm2]
    revert e5 e6 he h3
    generalize (storeInventory w _ true false).obj = o'
    intro e5 e6 he h3
    refine ⟨o'.inv, h3.symm ▸ h2.1, ?_⟩
    rw [hb] at e5 e6 he ⊢
    rw [hc] at e6 he ⊢
    rw [ha] at he ⊢
    unfold startUpdate withInv at e5 e6 he ⊢
    cases hi : newVersion o'.inv r.info.msg r.info.userName r.info.userAddress r.info.now with
    | error er => rw [hi] at e5; exact absurd e5 (by simp [Out.andThen])
    | ok i =>
      have hf := newVersion_frame hi
      have hmi : i.modified = true := hf.2.2.2.2.2.2.2.1.trans (h3.symm ▸ hm2)
      have hwi : i.writeable = true := hf.2.2.2.1
      simp only [hi] at he ⊢
      simp only [runCalls, ok, Out.andThen] at he ⊢
      unfold endUpdate at he ⊢
      simp only [hmi, hwi, Bool.true_eq_false, if_false, Bool.false_eq_true, runCalls, ok, Out.andThen, withInv,
        clean_modified hmi, storeInventory_trace.1]
  | cons r' rs ih =>
    rw [List.cons_append] at he ⊢
    unfold endUpdate at he ⊢
    rw [if_neg (by rw [hw]; simp), if_neg (by rw [hm]; simp)] at he ⊢
    obtain ⟨e1, he⟩ := andThen_split he
    obtain ⟨e2, he⟩ := andThen_split he
    obtain ⟨e3, he⟩ := andThen_split he
    obtain ⟨e4, he⟩ := andThen_split he
    obtain ⟨e5, he⟩ := andThen_split he
    obtain ⟨e6, he⟩ := andThen_split he
    have h1 := echo_wf (w := w) h
    have h2 := calls_wf (w := w) h1.1 after
    have hm2 := h2.2.2 (h1.2.2 hm)
    rw [andThen_none e1, andThen_none e2, andThen_none e3, andThen_none e4, andThen_none e5, andThen_none e6]
    have h3 : (storeInventory w (withInv (runCalls w (if o.echo then objEcho w o else ok o).obj after).obj
        (clean (runCalls w (if o.echo then objEcho w o else ok o).obj after).obj.inv)).obj true false).obj.inv =
        (runCalls w (if o.echo then objEcho w o else ok o).obj after).obj.inv := by
      rw [storeInventory_trace.1]
      unfold withInv
      rw [clean_modified hm2]
    have h4 := startUpdate_wf (w := w) (n := n) (h3.symm ▸ h2.1) e5
    have hm4 := h4.2.2 (h3.symm ▸ hm2)
    have h5 := calls_wf (w := w) h4.1 r'.body
    have := ih h5.1 (h5.2.1.trans h4.2.1) (h5.2.2 hm4) he
    rw [List.length_cons, show n + (rs.length + 1) = n + 1 + rs.length by omega]
    exact this

/-- a version opened and not used has the files of the one before -/
theorem newVersion_sameFiles {inv i : Inv} {n : Nat} (h : WF inv n) (hn : 0 < n) {m u a t : Str}
    (hi : newVersion inv m u a t = .ok i) :
    SameFiles i (verName inv.paddingLength ((n + 1 : Nat) : Int)) (verName inv.paddingLength (n : Int)) := by
  obtain ⟨s, _, hs, he⟩ := newVersion_gapFree h.1 h.2 m u a t
  rw [he] at hi
  cases hi
  obtain ⟨ver, hver⟩ : ∃ ver, mget inv.versions inv.head = some ver := Option.isSome_iff_exists.1 (mget_isSome_iff.2 (h.1.head_mem hn))
  have hst := hs _ hver
  have hfresh := h.1.next_not_mem
  have hne : verName inv.paddingLength (n : Int) ≠ verName inv.paddingLength ((n + 1 : Nat) : Int) := by
    intro e
    rw [← e, ← h.1.head_eq hn] at hfresh
    exact hfresh (h.1.head_mem hn)
  intro p d
  constructor
  · rintro ⟨v, ps, hv, hd, hp⟩
    rcases List.mem_append.1 hv with hv | hv
    · exact absurd (mem_mkeys_of_mem hv) hfresh
    · simp only [List.mem_singleton, Prod.mk.injEq, true_and] at hv
      subst hv
      refine ⟨ver, ps, List.mem_append_left _ ?_, by rw [← hst]; exact hd, hp⟩
      rw [← h.1.head_eq hn]
      exact mem_of_mget hver
  · rintro ⟨v, ps, hv, hd, hp⟩
    rcases List.mem_append.1 hv with hv | hv
    · rw [← h.1.head_eq hn] at hv
      have := mget_of_mem h.1.nodup hv
      rw [hver] at this
      cases this
      exact ⟨_, ps, List.mem_append_right _ (List.mem_singleton.2 rfl), by rw [hst]; exact hd, hp⟩
    · simp only [List.mem_singleton, Prod.mk.injEq] at hv
      exact absurd hv.1 hne

/-- **C87 fails for every automatic version that nothing is done in**: it is stored all the same. -/
theorem C87_unused_version_stored {w : World} {inv : Inv} {n : Nat} (h : WF inv n) {s : Session} {rs : List Round}
    {r : Round} (hs : s.rounds = rs ++ [r]) (hb : r.before = []) (hc : r.body = []) (ha : r.after = [])
    (he : (session w inv s).err = none) (hm : (session w inv s).obj.inv.modified = true) :
    GapFree (session w inv s).obj.inv (n + 2 + rs.length) ∧
    SameFiles (session w inv s).obj.inv (verName inv.paddingLength ((n + 2 + rs.length : Nat) : Int))
      (verName inv.paddingLength ((n + 1 + rs.length : Nat) : Int)) := by
  have hwf := (C87_versions_counted_partial h he hm).1
  rw [hs, List.length_append, List.length_singleton, show n + 1 + (rs.length + 1) = n + 2 + rs.length by omega] at hwf
  refine ⟨hwf, ?_⟩
  unfold session at he hm ⊢
  obtain ⟨e1, he2⟩ := andThen_split he
  rw [andThen_none e1, closeObj_inv] at hm ⊢
  have hpad : (sessionOpen w inv s).obj.inv.paddingLength = inv.paddingLength := (sessionOpen_stored h e1 hm).2.pad
  unfold sessionOpen at e1 hm hpad ⊢
  obtain ⟨f1, f⟩ := andThen_split e1
  obtain ⟨f2, f3⟩ := andThen_split f
  rw [andThen_none f1, andThen_none f2] at hm hpad ⊢
  have h1 := startUpdate_wf (w := w) (o := ⟨inv, [], false, []⟩) h f1
  have h2 := calls_wf (w := w) h1.1 s.body
  by_cases hmo : (runCalls w (startUpdate w ⟨inv, [], false, []⟩ s.info s.echo s.before).obj s.body).obj.inv.modified = true
  · rw [hs] at f3 hpad ⊢
    obtain ⟨i, hi, hnv⟩ := endUpdate_last_empty hb hc ha h2.1 (h2.2.1.trans h1.2.1) hmo f3
    have hp := (newVersion_frame hnv).2.1
    have := newVersion_sameFiles hi (by omega) hnv
    rw [← hp, hpad] at this
    rw [show n + 2 + rs.length = n + 1 + rs.length + 1 by omega]
    exact this
  · rw [endUpdate_unmodified (by simpa using hmo)] at hm
    exact absurd hm hmo

/-- `exSession` with an extension asking for a version it then does not use -/
def unusedSession : Session :=
  { exSession "n".toList with rounds := [{ info := ⟨"automated".toList, [], [], []⟩, before := [], body := [], after := [] }] }

/-- **C87 is violated.** -/
theorem C87_full_fails : ¬ C87_full := by
  intro hf
  have he : (session exWorld exInv unusedSession).err = none := by decide
  have hm : (session exWorld exInv unusedSession).obj.inv.modified = true := by decide
  have := C87_unused_version_stored (w := exWorld) exInv_wf2 (s := unusedSession) (rs := []) rfl rfl rfl rfl he hm
  exact hf exWorld exInv 2 unusedSession 4 4 exInv_wf2 rfl he this.1 hm (by omega) (by omega) (by omega) this.2

/-! ## Concrete cases -/

example : clean { exInv with head := "v3".toList, versions := exInv.versions ++ [("v3".toList, ⟨[], [], [], [], []⟩)] } =
    .ok exInv := by decide

example : ∃ i, newVersion exInv [] [] [] [] = .ok i ∧ clean i = .ok { exInv with writeable := true } := by
  obtain ⟨s, _, _, he⟩ := newVersion_gapFree exInv_wf2.1 exInv_wf2.2 [] [] [] []
  exact ⟨_, he, C87_clean_undoes exInv_wf2.1 exInv_wf2.2 (by omega) he rfl⟩

example : WF (session exWorld exInv unusedSession).obj.inv 4 :=
  C87_versions_counted_partial exInv_wf2 (by decide) (by decide)

end Gocfl
