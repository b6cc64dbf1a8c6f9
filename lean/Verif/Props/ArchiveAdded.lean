import Verif.Props.ArchiveDamage
import Verif.Props.AddedFile

/-! # C200: a foreign file in a whole archive -/

namespace Gocfl

theorem strLt_decl (num : Str) {c : Char} {x : Str} (hc : ('0' : Char) < c) : strLt (declName num) (c :: x) = true := by
  have e : declName num = '0' :: ('=' :: (objDecl ++ num)) := rfl
  have h1 : ('0' : Char).toNat < c.toNat := hc
  rw [e]
  unfold strLt strLe
  rw [if_neg (by omega), decide_eq_false (by omega)]
  rfl

/-- Where a file may be added without notice: in the extensions of the storage root, and at the places of C190 in an object. -/
inductive AddedUnseen (w : World) (fs : FS) (H : Str → History) (k : Str) : Prop
  | extensions (r : Str) (h : k = under "extensions".toList r)
  | object (id x : Str) (r : RawInv) (hid : H id ≠ []) (h : k = under (urnFolder id) x) (hr : ObjAccepted w false (subFS fs (urnFolder id)) r)
      (hx : UnseenName r x)

theorem inv_ne_side (alg : Str) : rootInvPath ≠ rootSidecarPath alg := by
  intro h
  have := congrArg List.length h
  unfold rootInvPath rootSidecarPath at this
  rw [List.length_append] at this
  have h1 : "inventory.json".toList.length = 14 := rfl
  have h2 : "inventory.json.".toList.length = 15 := rfl
  omega

theorem subFS_add {fs : FS} {f x : Str} {b : Bytes} : subFS (fs ++ [(under f x, b)]) f = subFS fs f ++ [(x, b)] := by
  unfold subFS
  rw [List.filterMap_append, List.filterMap_cons]
  simp [stripFolder_eq_some.2 (rfl : under f x = under f x)]

theorem subFS_add_other {fs : FS} {f k : Str} {b : Bytes} (h : stripFolder f k = none) : subFS (fs ++ [(k, b)]) f = subFS fs f := by
  unfold subFS
  rw [List.filterMap_append, List.filterMap_cons]
  simp [h]

theorem mget_added {fs : FS} {k x : Str} {b c : Bytes} (h : mget (fs ++ [(k, b)]) x = some c) : x = k ∨ mget fs x = some c := by
  by_cases he : x = k
  · exact .inl he
  · rw [mget_append_last he] at h; exact .inr h

theorem mget_added_old {fs : FS} {k x : Str} {b c : Bytes} (hk : mget fs k = none) (h : mget fs x = some c) : mget (fs ++ [(k, b)]) x = some c := by
  rw [mget_append_last (by rintro rfl; rw [hk] at h; cases h)]
  exact h

theorem mget_added_new {fs : FS} {k : Str} {b : Bytes} (hk : mget fs k = none) : mget (fs ++ [(k, b)]) k = some b := by
  induction fs with
  | nil => show (if k = k then some b else none) = _; rw [if_pos rfl]
  | cons e l ih =>
    obtain ⟨a, c⟩ := e
    simp only [mget, List.cons_append] at hk ⊢
    split at hk
    · cases hk
    · rename_i hne
      rw [if_neg hne]
      exact ih hk

section
variable {S : Setup} {h : Bytes → Str} {s : RootDisk} {H : Str → History} {t t' : FDir} {k : Str} {b : Bytes}

/-- **C200.** A storage root made and filled by the program validates.  Then a file is put into some folder of it.  It still validates if and
only if the file lies in the extensions of the storage root or, in an object, at a place of C190. -/
theorem C200_added_iff (d : DefaultConfig S) (hc : Codec S.w) (hx : HexHash S.w) (hL : LowerHash S.w) (ht : ∀ t, S.w.time (S.w.time t) = S.w.time t)
    (hh : S.w.hash S.args.alg = some h) (hr : UserRun S UrnId (AutoSession S.w (Deposit S.w h S.args)) s H) (hclean : NoLeftovers s.fs H)
    (T : TreeOf t s.fs) (G : GoodNames t) (hs : Sorted t) (hplain : S.plain = false)
    (hval : ∃ F, validateRoot S.w S.env S.plain S.blank s.fs t = .ok F ∧ NoErrors F)
    (hsl : '/' ∈ k) (hnew : mget s.fs k = none)
    (T' : TreeOf t' (s.fs ++ [(k, b)])) (G' : GoodNames t') (hs' : Sorted t') :
    (∃ F, validateRoot S.w S.env S.plain S.blank (s.fs ++ [(k, b)]) t' = .ok F ∧ NoErrors F) ↔ AddedUnseen S.w s.fs H k := by
  have R := tidy_run d hr
  have hobj := run_objects d hc hx hL ht hh hr
  have hacc : ∀ id, H id ≠ [] → Accepted S.w S.env false S.blank s.fs (urnFolder id) ∧ ∀ u, ObjVersion s.fs (urnFolder id) u → VersionLe u S.new.init.version := by
    intro id hne
    have := (validateRoot_iff R.declared R.nodup).1 hval _ ((C197_listed d hc hx hL ht hh hr hclean T G hs _).2 ⟨id, hne, rfl⟩)
    rw [hplain] at this
    exact this
  have hnd : (mkeys (s.fs ++ [(k, b)])).Nodup := by
    unfold mkeys
    rw [List.map_append]
    refine List.nodup_append.2 ⟨R.nodup, by simp, ?_⟩
    intro a ha c hc
    simp only [List.map_cons, List.map_nil, List.mem_singleton] at hc
    subst hc
    rintro rfl
    exact mget_eq_none_iff.1 hnew ha
  have D' : RootDeclared (s.fs ++ [(k, b)]) S.new.init.version := by
    refine ⟨R.declared.supported, ?_, fun n c hc hn => R.declared.only n c ?_ hn⟩
    · obtain ⟨c, hc, ht⟩ := R.declared.content
      exact ⟨c, mget_added_old hnew hc, ht⟩
    · rcases mget_added hc with rfl | hc
      · exact absurd hsl hn
      · exact hc
  -- a file of the storage root in a folder that is not that of the extensions belongs to an object
  have howner : ∀ {n r : Str} {c : Bytes}, '/' ∉ n → n ≠ "extensions".toList → mget s.fs (n ++ '/' :: r) = some c → ∃ id, H id ≠ [] ∧ n = urnFolder id := by
    intro n r c hn hext hb
    rcases R.places _ (by rw [hb]; simp) (by simp) with ⟨r', h1⟩ | ⟨id, r', hid, h1⟩
    · exact absurd (first_part hn (by decide) h1) hext
    · refine ⟨id, fun h0 => ?_, first_part hn (urnFolder_no_slash hid) h1⟩
      have := hclean id hid h0 r'
      rw [← h1, hb] at this; cases this
  rw [validateRoot_iff D' hnd]
  obtain ⟨n, y, rfl, hn⟩ := added_split hsl
  constructor
  · intro hall
    by_cases hext : n = "extensions".toList
    · subst hext; exact .extensions y rfl
    by_cases hob : ∃ id, H id ≠ [] ∧ n = urnFolder id
    · obtain ⟨id, hne, rfl⟩ := hob
      obtain ⟨hid, C, r, O, A⟩ := hobj id hne
      -- the folder of the object is listed
      have hdec : mget (s.fs ++ [(urnFolder id ++ '/' :: y, b)]) (under (urnFolder id) (declName S.args.version)) ≠ none := by
        obtain ⟨c, hc⟩ := Option.ne_none_iff_exists'.1 C.declaration
        rw [mget_subFS] at hc
        rw [mget_added_old hnew hc]; simp
      obtain ⟨c, hc⟩ := Option.ne_none_iff_exists'.1 hdec
      obtain ⟨x, hx1, hx2⟩ := (T'.files [urnFolder id] (declName S.args.version) (by
        intro c hc
        rcases List.mem_append.1 hc with hc | hc
        · rw [List.mem_singleton.1 hc]; exact hn
        · rw [List.mem_singleton.1 hc]; exact declName_noSlash C.number)).2 ⟨c, hc⟩
      obtain ⟨q, rr, hq1, hq2, hq3⟩ := folders_cover G' hx1 (fun h0 => by rw [h0] at hx2; cases hx2) (by simp)
        (by simpa using hext)
      have hq : q = [urnFolder id] := by
        cases q with
        | nil => exact absurd rfl hq2
        | cons a q =>
          rw [List.cons_append, List.cons.injEq] at hq1
          have := List.append_eq_nil_iff.1 hq1.2.symm
          rw [this.1, hq1.1]
      subst hq
      have h1 := (hall _ hq3).1
      rw [hplain] at h1
      obtain ⟨r0, O0, hiff⟩ := C190_added_partial (env' := S.env) (blank' := S.blank) (b := b) (k := y) hL (hacc id hne).1 (by rw [mget_subFS]; exact hnew)
      exact .object id y r0 hne rfl O0 (hiff.1 h1)
    · exfalso
      -- a folder on the way to the new file is listed
      obtain ⟨p, m, hpm⟩ : ∃ p m, splitOn '/' y = p ++ [m] := by
        rcases List.eq_nil_or_concat (splitOn '/' y) with h0 | ⟨p, m, h0⟩
        · exact absurd h0 (splitOn_ne_nil _ _)
        · exact ⟨p, m, by simpa using h0⟩
      have hpath : folderPath (n :: p ++ [m]) = n ++ '/' :: y := by
        rw [List.cons_append, ← hpm, folderPath_cons _ (splitOn_ne_nil _ _)]
        unfold folderPath
        rw [joinWith_splitOn]
      have hnames : ∀ c ∈ n :: p ++ [m], '/' ∉ c := by
        intro c hc
        rw [List.cons_append, ← hpm] at hc
        rcases List.mem_cons.1 hc with rfl | hc
        · exact hn
        · exact splitOn_noSep_mem hc
      obtain ⟨x, hx1, hx2⟩ := (T'.files (n :: p) m hnames).2 ⟨b, by rw [hpath]; exact mget_added_new hnew⟩
      obtain ⟨q, rr, hq1, hq2, hq3⟩ := folders_cover G' hx1 (fun h0 => by rw [h0] at hx2; cases hx2) (by simp) (by simpa using hext)
      obtain ⟨q', hq'⟩ : ∃ q', q = n :: q' := by
        cases q with
        | nil => exact absurd rfl hq2
        | cons a q =>
          rw [List.cons_append, List.cons.injEq] at hq1
          exact ⟨q, by rw [hq1.1]⟩
      obtain ⟨r0, O0⟩ := (C184_accepted_iff hL).1 (hall _ hq3).1
      -- it has an inventory and a sidecar
      obtain ⟨⟨b1, b2, _, g1, _, _, g2, _⟩, _⟩ := O0.root
      rw [mget_subFS] at g1 g2
      have hform : ∀ z, ∃ z', under (folderPath q) z = n ++ '/' :: z' := by
        intro z
        rw [hq']
        cases q' with
        | nil => exact ⟨z, rfl⟩
        | cons a q' => rw [folderPath_cons _ (by simp)]; exact ⟨folderPath (a :: q') ++ '/' :: z, by unfold under; simp⟩
      have hone : ∀ {z c}, mget (s.fs ++ [(n ++ '/' :: y, b)]) (under (folderPath q) z) = some c → under (folderPath q) z = n ++ '/' :: y := by
        intro z c hz
        rcases mget_added hz with hz | hz
        · exact hz
        · obtain ⟨z', hz'⟩ := hform z
          rw [hz'] at hz
          exact absurd (howner hn hext hz) hob
      have := (hone g1).trans (hone g2).symm
      unfold under at this
      exact inv_ne_side _ (List.cons.inj (List.append_cancel_left this)).2
  · intro hU p hp
    obtain ⟨m, sub, hm, _, hext, hp⟩ := mem_folders_iff.1 hp
    obtain ⟨q, x, _, hq, l, hl, _⟩ := mem_recurseObjects hp
    have hms := ((T'.names _ _ (.step hm hq)).1 m (by simp)).1
    -- whose folder it is
    obtain ⟨id, hne, rfl⟩ : ∃ id, H id ≠ [] ∧ m = urnFolder id := by
      obtain ⟨c, hc⟩ := tree_file T' (.step hm hq) hl
      have e0 : folderPath (m :: q ++ [l]) = m ++ '/' :: folderPath (q ++ [l]) := folderPath_cons _ (by simp)
      rw [e0] at hc
      rcases mget_added hc with he | hc
      · have e1 := first_part hms hn he
        subst e1
        cases hU with
        | extensions r h => exact absurd (first_part hn (by decide) h) hext
        | object id x r hid h _ _ => exact ⟨id, hid, first_part hn (urnFolder_no_slash (hobj id hid).1) h⟩
      · exact howner hms hext hc
    obtain ⟨hid, C, r, O, A⟩ := hobj id hne
    -- what is new in it
    have hin : ∀ {z}, under (urnFolder id) z = n ++ '/' :: y → z = y ∧ ∃ r0, ObjAccepted S.w false (subFS s.fs (urnFolder id)) r0 ∧ UnseenName r0 y := by
      intro z hz
      have e1 := first_part hms hn hz
      subst e1
      have e2 : z = y := List.cons.inj (List.append_cancel_left hz) |>.2
      subst e2
      cases hU with
      | extensions r h => exact absurd (first_part hn (by decide) h) hext
      | object id' x r hid' h hr0 hx0 =>
        have hu' := (hobj id' hid').1
        have e1 := first_part hn (urnFolder_no_slash hu') h
        have e3 : z = x := by rw [e1] at h; exact List.cons.inj (List.append_cancel_left h) |>.2
        subst e3
        rw [← e1] at hr0
        exact ⟨rfl, r, hr0, hx0⟩
    have hrec : recurseObjects [urnFolder id] sub = [[urnFolder id]] := by
      have hr1 : Reach t' [urnFolder id] sub := .step hm (.here _)
      obtain ⟨c, hc⟩ := Option.ne_none_iff_exists'.1 C.declaration
      rw [mget_subFS] at hc
      obtain ⟨z, hz, hdf⟩ := (T'.files [urnFolder id] (declName S.args.version) (by
        intro c hc
        rcases List.mem_append.1 hc with hc | hc
        · rw [List.mem_singleton.1 hc]; exact hms
        · rw [List.mem_singleton.1 hc]; exact declName_noSlash C.number)).2 ⟨c, mget_added_old hnew hc⟩
      rw [← reach_unique G' hr1 hz] at hdf
      refine recurse_object (hs' _ _ hr1) hdf (fun m hm => (G' _ _ hr1).2 m (List.mem_append.2 (.inr hm))) ?_ [urnFolder id]
      rintro ⟨e, sub'⟩ he ⟨q2, z2, hz2, hne2⟩
      obtain ⟨m2, hm2⟩ := List.exists_mem_of_ne_nil _ hne2
      have hr2 : Reach t' (urnFolder id :: e :: q2) z2 := .step hm (.step he hz2)
      obtain ⟨c2, hc2⟩ := tree_file T' hr2 hm2
      have he1 := ((T'.names _ _ hr2).1 e (by simp)).1
      have e1 : folderPath (urnFolder id :: e :: q2 ++ [m2]) = under (urnFolder id) (e ++ '/' :: folderPath (q2 ++ [m2])) := by
        show folderPath (urnFolder id :: (e :: (q2 ++ [m2]))) = _
        rw [folderPath_cons _ (by simp), folderPath_cons _ (by simp)]
        rfl
      rw [e1] at hc2
      show strLt (declName S.args.version) e = true
      rcases mget_added hc2 with h2 | h2
      · obtain ⟨hy, r0, hr0, hu0⟩ := hin h2
        cases hu0 with
        | ignored hi =>
          rw [← hy] at hi
          obtain ⟨w, hi | hi⟩ := hi
          · rw [first_part he1 (by decide) hi]; exact strLt_decl _ (by decide)
          · rw [first_part he1 (by decide) hi]; exact strLt_decl _ (by decide)
        | top h3 _ _ => rw [← hy] at h3; simp at h3
        | beside v w hv hk _ _ =>
          have hr : r0 = r := by
            obtain ⟨⟨c, _, _, hc, hd, _⟩, _⟩ := hr0.root
            obtain ⟨c', _, _, hc', hd', _⟩ := O.stored
            rw [hc] at hc'; cases hc'
            rw [hd] at hd'; cases hd'; rfl
          subst hr
          rw [← hy] at hk
          obtain ⟨⟨v', ver⟩, hv', rfl⟩ := List.mem_map.1 hv
          have hvs : '/' ∉ v' := by
            obtain ⟨i, _, _, hi⟩ := (O.inv.mem_keys v').1 hv
            rw [hi]; exact verName_noSlash _ _
          obtain ⟨x3, b3, h3⟩ := O.folders v' ver hv'
          rw [first_part he1 hvs hk]
          exact decl_before O _ h3 hvs
      · rw [← mget_subFS] at h2
        exact decl_before O _ h2 he1
    rw [hrec, List.mem_singleton] at hp
    subst hp
    obtain ⟨h1, h2⟩ := hacc id hne
    rw [hplain]
    have hfp : folderPath [urnFolder id] = urnFolder id := rfl
    rw [hfp]
    constructor
    · cases hf : stripFolder (urnFolder id) (n ++ '/' :: y) with
      | none =>
        unfold Accepted at h1 ⊢
        rw [C184_accepted_iff hL] at h1 ⊢
        rw [subFS_add_other hf]
        exact h1
      | some z =>
        have hz := stripFolder_eq_some.1 hf
        obtain ⟨hy, r0, hr0, hu0⟩ := hin hz.symm
        subst hy
        obtain ⟨r1, O1, hiff⟩ := C190_added_partial (env' := S.env) (blank' := S.blank) (b := b) (k := z) hL h1 (by rw [mget_subFS, ← hz]; exact hnew)
        have hr : r1 = r0 := invAt_unique hr0.root O1.root rfl
        subst hr
        unfold Accepted
        rw [hz]
        exact hiff.2 hu0
    · intro u hu
      obtain ⟨hu1, c, hc⟩ := hu
      refine h2 u ⟨hu1, c, ?_⟩
      rcases mget_added hc with hc | hc
      · exfalso
        obtain ⟨hy, r0, hr0, hu0⟩ := hin (z := declName u) hc
        have hds := declName_noSlash hu1
        rw [hy] at hds
        cases hu0 with
        | ignored hi => exact not_ignored_top hds hi
        | top _ _ h5 => exact h5 u hu1 hy.symm
        | beside v w _ hk _ _ => rw [hk] at hds; simp at hds
      · exact hc

/-- **C200, what is noticed**: a file in a folder of its own, beside those of the objects, and a file in the content directory of a version. -/
theorem C200_noticed_partial (d : DefaultConfig S) (hc : Codec S.w) (hx : HexHash S.w) (hL : LowerHash S.w) (ht : ∀ t, S.w.time (S.w.time t) = S.w.time t)
    (hh : S.w.hash S.args.alg = some h) (hr : UserRun S UrnId (AutoSession S.w (Deposit S.w h S.args)) s H) (hclean : NoLeftovers s.fs H)
    (T : TreeOf t s.fs) (G : GoodNames t) (hs : Sorted t) (hplain : S.plain = false)
    (hval : ∃ F, validateRoot S.w S.env S.plain S.blank s.fs t = .ok F ∧ NoErrors F) (hnew : mget s.fs k = none)
    (T' : TreeOf t' (s.fs ++ [(k, b)])) (G' : GoodNames t') (hs' : Sorted t') {n y : Str} (hn : '/' ∉ n) (hk : k = n ++ '/' :: y)
    (hplace : (n ≠ "extensions".toList ∧ ∀ id, H id ≠ [] → n ≠ urnFolder id) ∨
      ∃ id r v q, H id ≠ [] ∧ n = urnFolder id ∧ ValidObject S.w (subFS s.fs n) 0 (H id).length r ∧ v ∈ mkeys r.inv.versions ∧
        y = v ++ '/' :: (r.inv.contentDir ++ '/' :: q)) :
    ¬ ∃ F, validateRoot S.w S.env S.plain S.blank (s.fs ++ [(k, b)]) t' = .ok F ∧ NoErrors F := by
  have hobj := run_objects d hc hx hL ht hh hr
  rw [C200_added_iff d hc hx hL ht hh hr hclean T G hs hplain hval (by rw [hk]; simp) hnew T' G' hs']
  intro hU
  rcases hplace with ⟨h1, h2⟩ | ⟨id, r, v, q, h1, rfl, V, hv, rfl⟩
  · cases hU with
    | extensions r h => exact h1 (first_part hn (by decide) (hk.symm.trans h))
    | object id x r hid h _ _ => exact h2 id hid (first_part hn (urnFolder_no_slash (hobj id hid).1) (hk.symm.trans h))
  · have hvs : ∃ i : Nat, v = verName ((0 : Nat) : Int) (i : Int) := by
      obtain ⟨i, _, _, hi⟩ := (V.inv.mem_keys v).1 hv
      exact ⟨i, hi⟩
    obtain ⟨i, hi⟩ := hvs
    have hvn : '/' ∉ v := by rw [hi]; exact verName_noSlash _ _
    cases hU with
    | extensions r h => exact urn_clear (hobj id h1).1 (.inl (first_part hn (by decide) (hk.symm.trans h)))
    | object id' x r0 hid' h hr0 hx0 =>
      have hu' := (hobj id' hid').1
      have e := hk.symm.trans h
      have e1 := first_part hn (urnFolder_no_slash hu') e
      rw [e1] at e
      have e2 := (List.cons.inj (List.append_cancel_left e)).2
      rw [← e1] at hr0
      have hr : r0 = r := by
        obtain ⟨⟨c, _, _, hc, hd, _⟩, _⟩ := hr0.root
        obtain ⟨c', _, _, hc', hd', _⟩ := V.stored
        rw [hc] at hc'; cases hc'
        rw [hd] at hd'; cases hd'; rfl
      subst hr
      cases hx0 with
      | ignored h3 =>
        rw [← e2] at h3
        exact not_ignored_under hvn (by rw [hi]; exact verName_ne_word (by decide)) (by rw [hi]; exact verName_ne_word (by decide)) h3
      | top h3 _ _ => rw [← e2] at h3; simp at h3
      | beside v' q' hv' hk' _ hc' =>
        have hvn' : '/' ∉ v' := by
          obtain ⟨j, _, _, hj⟩ := (V.inv.mem_keys v').1 hv'
          rw [hj]; exact verName_noSlash _ _
        have e3 := added_split_unique (e2.trans hk') hvn hvn'
        exact hc' ⟨'/' :: q, e3.2⟩

/-- **C200, files directly in the storage root**, also in object stores: such a file is noticed if and only if its name has a declaration of a
storage root in it. -/
theorem C200_top_iff (d : DefaultConfig S) (hc : Codec S.w) (hx : HexHash S.w) (hL : LowerHash S.w) (ht : ∀ t, S.w.time (S.w.time t) = S.w.time t)
    (hh : S.w.hash S.args.alg = some h) (hr : UserRun S UrnId (AutoSession S.w (Deposit S.w h S.args)) s H) (hclean : NoLeftovers s.fs H)
    (T : TreeOf t s.fs) (G : GoodNames t) (hs : Sorted t)
    (hval : ∃ F, validateRoot S.w S.env S.plain S.blank s.fs t = .ok F ∧ NoErrors F)
    (hsl : '/' ∉ k) (hnew : mget s.fs k = none)
    (T' : TreeOf t' (s.fs ++ [(k, b)])) (G' : GoodNames t') (hs' : Sorted t') :
    (∃ F, validateRoot S.w S.env S.plain S.blank (s.fs ++ [(k, b)]) t' = .ok F ∧ NoErrors F) ↔
      ∀ u, IsVersionNum u → ¬ ("0=ocfl_".toList ++ u).IsInfix k := by
  have R := tidy_run d hr
  have hobj := run_objects d hc hx hL ht hh hr
  have hnd : (mkeys (s.fs ++ [(k, b)])).Nodup := by
    unfold mkeys
    rw [List.map_append]
    refine List.nodup_append.2 ⟨R.nodup, by simp, ?_⟩
    intro a ha c hc
    simp only [List.map_cons, List.map_nil, List.mem_singleton] at hc
    subst hc
    rintro rfl
    exact mget_eq_none_iff.1 hnew ha
  have hdisj : ∀ {f z}, under f z ≠ k := by
    rintro f z rfl
    exact hsl (by unfold under; simp)
  have hold : ∀ {f z c}, mget (s.fs ++ [(k, b)]) (under f z) = some c → mget s.fs (under f z) = some c := by
    intro f z c hz
    rcases mget_added hz with hz | hz
    · exact absurd hz hdisj
    · exact hz
  have hnum : IsVersionNum S.new.init.version := supportedRoot_num (supportedRoot_iff.2 R.declared.supported)
  constructor
  · rintro ⟨F, hF, hN⟩ u hu hin
    obtain ⟨v, D, _⟩ := C81_accepted_root hF hN T' G' hnd
    obtain ⟨c, hc, _⟩ := R.declared.content
    have hvs : '/' ∉ "0=ocfl_".toList ++ S.new.init.version := by
      have := R.declared.supported
      simp only [List.mem_cons, List.not_mem_nil, or_false] at this
      rcases this with h1 | h1 | h1 <;> rw [h1] <;> decide
    have h1 := D.only _ _ (mget_added_old hnew hc) hvs _ hnum (List.infix_refl _)
    have h2 := D.only _ _ (mget_added_new hnew) hsl u hu hin
    rw [← h1] at h2
    rw [h2, hc] at hnew
    cases hnew
  · intro hno
    have D' : RootDeclared (s.fs ++ [(k, b)]) S.new.init.version := by
      refine ⟨R.declared.supported, ?_, fun n c hc hn u hu hin => ?_⟩
      · obtain ⟨c, hc, ht⟩ := R.declared.content
        exact ⟨c, mget_added_old hnew hc, ht⟩
      · rcases mget_added hc with rfl | hc
        · exact absurd hin (hno u hu)
        · exact R.declared.only n c hc hn u hu hin
    refine (validateRoot_iff D' hnd).2 ?_
    intro p hp
    obtain ⟨m, sub, hm, _, hext, hp⟩ := mem_folders_iff.1 hp
    obtain ⟨q, x, _, hq, l, hl, _⟩ := mem_recurseObjects hp
    have hms := ((T'.names _ _ (.step hm hq)).1 m (by simp)).1
    obtain ⟨id, hne, rfl⟩ : ∃ id, H id ≠ [] ∧ m = urnFolder id := by
      obtain ⟨c, hc⟩ := tree_file T' (.step hm hq) hl
      have e0 : folderPath (m :: q ++ [l]) = under m (folderPath (q ++ [l])) := folderPath_cons _ (by simp)
      rw [e0] at hc
      have hb := hold hc
      rcases R.places _ (by rw [hb]; simp) (by unfold under; simp) with ⟨r', h1⟩ | ⟨id, r', hid, h1⟩
      · exact absurd (first_part hms (by decide) h1) hext
      · refine ⟨id, fun h0 => ?_, first_part hms (urnFolder_no_slash hid) h1⟩
        have := hclean id hid h0 r'
        rw [← h1, hb] at this; cases this
    obtain ⟨hid, C, r, O, A⟩ := hobj id hne
    have hrec : recurseObjects [urnFolder id] sub = [[urnFolder id]] := by
      have hr1 : Reach t' [urnFolder id] sub := .step hm (.here _)
      obtain ⟨c, hc⟩ := Option.ne_none_iff_exists'.1 C.declaration
      rw [mget_subFS] at hc
      obtain ⟨z, hz, hdf⟩ := (T'.files [urnFolder id] (declName S.args.version) (by
        intro c hc
        rcases List.mem_append.1 hc with hc | hc
        · rw [List.mem_singleton.1 hc]; exact hms
        · rw [List.mem_singleton.1 hc]; exact declName_noSlash C.number)).2 ⟨c, mget_added_old hnew hc⟩
      rw [← reach_unique G' hr1 hz] at hdf
      refine recurse_object (hs' _ _ hr1) hdf (fun m hm => (G' _ _ hr1).2 m (List.mem_append.2 (.inr hm))) ?_ [urnFolder id]
      rintro ⟨e, sub'⟩ he ⟨q2, z2, hz2, hne2⟩
      obtain ⟨m2, hm2⟩ := List.exists_mem_of_ne_nil _ hne2
      have hr2 : Reach t' (urnFolder id :: e :: q2) z2 := .step hm (.step he hz2)
      obtain ⟨c2, hc2⟩ := tree_file T' hr2 hm2
      have he1 := ((T'.names _ _ hr2).1 e (by simp)).1
      have e1 : folderPath (urnFolder id :: e :: q2 ++ [m2]) = under (urnFolder id) (e ++ '/' :: folderPath (q2 ++ [m2])) := by
        show folderPath (urnFolder id :: (e :: (q2 ++ [m2]))) = _
        rw [folderPath_cons _ (by simp), folderPath_cons _ (by simp)]
        rfl
      rw [e1] at hc2
      have h2 := hold hc2
      rw [← mget_subFS] at h2
      exact decl_before O _ h2 he1
    rw [hrec, List.mem_singleton] at hp
    subst hp
    obtain ⟨h1, h2⟩ := (validateRoot_iff R.declared R.nodup).1 hval _ ((C197_listed d hc hx hL ht hh hr hclean T G hs _).2 ⟨id, hne, rfl⟩)
    constructor
    · unfold Accepted at h1 ⊢
      rw [C184_accepted_iff hL] at h1 ⊢
      have hf : stripFolder (urnFolder id) k = none := by
        cases hf : stripFolder (urnFolder id) k with
        | none => rfl
        | some z => exact absurd (stripFolder_eq_some.1 hf).symm hdisj
      rw [show folderPath [urnFolder id] = urnFolder id from rfl] at h1 ⊢
      rw [subFS_add_other hf]
      exact h1
    · rintro u ⟨hu1, c, hc⟩
      exact h2 u ⟨hu1, c, hold hc⟩

end

/-- **C200 in full**: a file put into a folder of the storage root is noticed, but for extensions and logs. -/
def C200_full : Prop := ∀ (S : Setup) (h : Bytes → Str) (s : RootDisk) (H : Str → History) (t t' : FDir) (k : Str) (b : Bytes), DefaultConfig S → Codec S.w →
  HexHash S.w → LowerHash S.w → (∀ t, S.w.time (S.w.time t) = S.w.time t) → S.w.hash S.args.alg = some h →
  UserRun S UrnId (AutoSession S.w (Deposit S.w h S.args)) s H → NoLeftovers s.fs H → TreeOf t s.fs → GoodNames t → Sorted t → S.plain = false →
  (∃ F, validateRoot S.w S.env S.plain S.blank s.fs t = .ok F ∧ NoErrors F) → '/' ∈ k → mget s.fs k = none →
  TreeOf t' (s.fs ++ [(k, b)]) → GoodNames t' → Sorted t' →
  (∀ r, k ≠ under "extensions".toList r) → (∀ id x, H id ≠ [] → k = under (urnFolder id) x → ¬ Ignored x) →
    ¬ ∃ F, validateRoot S.w S.env S.plain S.blank (s.fs ++ [(k, b)]) t' = .ok F ∧ NoErrors F

/-! ## Case -/

theorem mkeys_add (fs : FS) (k : Str) (b : Bytes) : mkeys (fs ++ [(k, b)]) = mkeys fs ++ [k] := by
  unfold mkeys
  rw [List.map_append]
  rfl

theorem av_none {k : Str} (hk : k ∉ mkeys avDisk.fs) : mget avDisk.fs k = none := mget_eq_none_iff.2 hk

/-- with a file in a folder beside the content -/
def avNotes : FDir := .file "0=ocfl_1.1".toList (.dir "a".toList
  (.file "0=ocfl_object_1.1".toList (.file "inventory.json".toList (.file "inventory.json.sha512".toList (.dir "v1".toList
    (.dir "content".toList (.dir "c".toList (.file "d".toList .nil) (.file "e".toList .nil))
      (.file "inventory.json".toList (.file "inventory.json.sha512".toList (.dir "notes".toList (.file "n".toList .nil) .nil)))) .nil))))
  (.dir "extensions".toList avExt (.file "ocfl_spec.md".toList .nil)))

theorem av_object : ∃ r, ObjAccepted exKeep false (subFS avDisk.fs (urnFolder "a".toList)) r ∧ "v1".toList ∈ mkeys r.inv.versions ∧
    ¬ r.inv.contentDir <+: "notes/n".toList := by
  obtain ⟨_, _, r0, V, A⟩ := run_objects avSetup_default (codecWorld_codec _) (codecWorld_hex _) exKeep_lower (fun _ => rfl) rtHash_eq av_run "a".toList avH_a
  have R := tidy_run avSetup_default av_run
  have hlist := C197_listed avSetup_default (codecWorld_codec _) (codecWorld_hex _) exKeep_lower (fun _ => rfl) rtHash_eq av_run av_clean av_tree av_good.1 av_good.2
  have hthis : ["a".toList] ∈ getObjectFolders avTree := (hlist _).2 ⟨"a".toList, avH_a, rfl⟩
  obtain ⟨r, O⟩ := (C184_accepted_iff exKeep_lower).1 ((validateRoot_iff R.declared R.nodup).1 av_valid _ hthis).1
  have O : ObjAccepted exKeep false (subFS avDisk.fs (urnFolder "a".toList)) r := O
  have he : r = r0 := by
    obtain ⟨⟨c, _, _, hc, hd, _⟩, _⟩ := O.root
    obtain ⟨c', _, _, hc', hd', _⟩ := V.stored
    rw [hc] at hc'; cases hc'
    have hd' : exKeep.dec c = some r0 := hd'
    rw [hd] at hd'; cases hd'; rfl
  subst he
  refine ⟨r, O, (V.inv.mem_keys _).2 ⟨1, by decide, by decide, by decide⟩, ?_⟩
  rw [archived_cdir A]
  decide

/-- **C200**: a file in a folder of a version beside the content passes. -/
theorem C200_full_fails : ¬ C200_full := by
  intro hf
  have hk := mkeys_add avDisk.fs "a/v1/notes/n".toList [1]
  rw [av_keys] at hk
  have hnew : mget avDisk.fs "a/v1/notes/n".toList = none := av_none (by rw [av_keys]; decide)
  have T' : TreeOf avNotes (avDisk.fs ++ [("a/v1/notes/n".toList, [1])]) :=
    treeOf_of_check (by decide) (by decide) (by rw [hk]; decide +kernel) (by rw [hk]; decide +kernel)
  have G' : GoodNames avNotes := goodNames_of_check (by decide) (by decide)
  have hs' : Sorted avNotes := sorted_of_check (by decide) (by decide)
  refine hf avSetup rtHash avDisk avH avTree avNotes "a/v1/notes/n".toList [1] avSetup_default (codecWorld_codec _) (codecWorld_hex _) exKeep_lower
    (fun _ => rfl) rtHash_eq av_run av_clean av_tree av_good.1 av_good.2 rfl av_valid (by decide) hnew T' G' hs' ?_ ?_ ?_
  · intro r he
    exact absurd (first_part (n := "a".toList) (r := "v1/notes/n".toList) (by decide) (by decide) he) (by decide)
  · intro id x hid he
    have h0 : id = "a".toList := by
      by_contra hc
      exact hid (by unfold avH; rw [if_neg hc])
    subst h0
    have e : x = "v1/notes/n".toList := (List.cons.inj (List.append_cancel_left (show "a".toList ++ '/' :: "v1/notes/n".toList = "a".toList ++ '/' :: x from he))).2.symm
    rw [e]
    exact not_ignored_under (d := "v1".toList) (q := "notes/n".toList) (by decide) (by decide) (by decide)
  · obtain ⟨r, O, hv, hc⟩ := av_object
    exact (C200_added_iff (S := avSetup) (h := rtHash) avSetup_default (codecWorld_codec _) (codecWorld_hex _) exKeep_lower (fun _ => rfl) rtHash_eq av_run
      av_clean av_tree av_good.1 av_good.2 rfl av_valid (by decide) hnew T' G' hs').2
      (.object "a".toList "v1/notes/n".toList r avH_a rfl O (.beside "v1".toList "notes/n".toList hv rfl (by decide) hc))

def avStray : FDir := .file "0=ocfl_1.1".toList (.dir "a".toList avObj (.dir "b".toList (.file "x".toList .nil)
  (.dir "extensions".toList avExt (.file "ocfl_spec.md".toList .nil))))

/-- the hypotheses of C200 are met: a file in a folder beside that of the object is noticed -/
example : ¬ ∃ F, validateRoot exKeep exEnv false (blankInv [] []) (avDisk.fs ++ [("b/x".toList, [1])]) avStray = .ok F ∧ NoErrors F := by
  have hk := mkeys_add avDisk.fs "b/x".toList [1]
  rw [av_keys] at hk
  refine C200_noticed_partial (S := avSetup) (h := rtHash) (H := avH) avSetup_default (codecWorld_codec _) (codecWorld_hex _) exKeep_lower (fun _ => rfl)
    rtHash_eq av_run av_clean av_tree av_good.1 av_good.2 rfl av_valid (av_none (by rw [av_keys]; decide))
    (treeOf_of_check (by decide) (by decide) (by rw [hk]; decide +kernel) (by rw [hk]; decide +kernel))
    (goodNames_of_check (by decide) (by decide)) (sorted_of_check (by decide) (by decide))
    (n := "b".toList) (y := "x".toList) (by decide) rfl (.inl ⟨by decide, ?_⟩)
  intro id hid
  have h0 : id = "a".toList := by
    by_contra hc
    exact hid (by unfold avH; rw [if_neg hc])
  subst h0
  decide

def avReadme : FDir := .file "0=ocfl_1.1".toList (.file "README".toList (.dir "a".toList avObj
  (.dir "extensions".toList avExt (.file "ocfl_spec.md".toList .nil))))

/-- another file directly in the storage root is not noticed -/
example : ∃ F, validateRoot exKeep exEnv false (blankInv [] []) (avDisk.fs ++ [("README".toList, [1])]) avReadme = .ok F ∧ NoErrors F := by
  have hk := mkeys_add avDisk.fs "README".toList [1]
  rw [av_keys] at hk
  refine (C200_top_iff (S := avSetup) (h := rtHash) (H := avH) avSetup_default (codecWorld_codec _) (codecWorld_hex _) exKeep_lower (fun _ => rfl)
    rtHash_eq av_run av_clean av_tree av_good.1 av_good.2 av_valid (by decide) (av_none (by rw [av_keys]; decide))
    (treeOf_of_check (by decide) (by decide) (by rw [hk]; decide +kernel) (by rw [hk]; decide +kernel))
    (goodNames_of_check (by decide) (by decide)) (sorted_of_check (by decide) (by decide))).2 ?_
  rintro u _ ⟨x, y, hxy⟩
  have hm : '=' ∈ "README".toList := by rw [← hxy]; simp
  exact absurd hm (by decide)

def avTwo : FDir := .file "0=ocfl_1.0".toList (.file "0=ocfl_1.1".toList (.dir "a".toList avObj
  (.dir "extensions".toList avExt (.file "ocfl_spec.md".toList .nil))))

/-- another declaration is -/
example : ¬ ∃ F, validateRoot exKeep exEnv false (blankInv [] []) (avDisk.fs ++ [("0=ocfl_1.0".toList, [1])]) avTwo = .ok F ∧ NoErrors F := by
  have hk := mkeys_add avDisk.fs "0=ocfl_1.0".toList [1]
  rw [av_keys] at hk
  intro hv
  exact (C200_top_iff (S := avSetup) (h := rtHash) (H := avH) avSetup_default (codecWorld_codec _) (codecWorld_hex _) exKeep_lower (fun _ => rfl)
    rtHash_eq av_run av_clean av_tree av_good.1 av_good.2 av_valid (by decide) (av_none (by rw [av_keys]; decide))
    (treeOf_of_check (by decide) (by decide) (by rw [hk]; decide +kernel) (by rw [hk]; decide +kernel))
    (goodNames_of_check (by decide) (by decide)) (sorted_of_check (by decide) (by decide))).1 hv "1.0".toList
      ⟨"1".toList, "0".toList, by decide, by decide, by decide, by decide, rfl⟩ (List.infix_refl _)

end Gocfl
