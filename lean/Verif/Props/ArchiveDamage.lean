import Verif.Props.ArchiveLoss

/-! # C199: change of a file in a whole archive -/

namespace Gocfl

/-! ## One object -/

/-- where sidecars lie: directly in the folder and in those of the versions -/
def SidecarPlace (p N : Nat) (x : Str) : Prop := x = [] ∨ ∃ n : Nat, 0 < n ∧ n ≤ N ∧ x = verName (p : Int) (n : Int) ++ ['/']

/-- The file is the declaration or a sidecar, and says the same as before. -/
inductive SaysSame (w : World) (fs : FS) (p N : Nat) (k : Str) (b' : Bytes) : Prop
  | declaration (num : Str) (hn : IsVersionNum num) (h : k = declName num)
      (ht : bytesStr b' = objDecl ++ num ++ "\n".toList ∨ bytesStr b' = objDecl ++ num ++ "\r\n".toList)
  | sidecar (x : Str) (hx : SidecarPlace p N x) (h : k = x ++ "inventory.json.sha512".toList)
      (ht : ∀ b hash, mget fs (x ++ "inventory.json".toList) = some b → w.hash "sha512".toList = some hash → SidecarText (bytesStr b') (hash b))

theorem declName_inj {a b : Str} (h : declName a = declName b) : a = b := by
  unfold declName at h
  exact List.append_cancel_left (List.append_cancel_left h)

theorem verName_ne_word {p : Int} {n : Nat} {x : Str} (h : x.head? ≠ some 'v') : verName p (n : Int) ≠ x := by
  rintro rfl
  obtain ⟨k, hk⟩ := verName_shape p n
  rw [hk] at h
  exact h rfl

theorem listed_place {w : World} {fs : FS} {p N : Nat} {i : Inv} {k : Str} (V : ValidInv p N i) (D : DiskMatches w fs i) (h : ListedIn i k) :
    ∃ n cd q, k = verName (p : Int) ((n : Nat) : Int) ++ '/' :: (cd ++ '/' :: q) := by
  have key : ∀ {d m}, (d, m) ∈ i.manifest → k ∈ m → ∃ n cd q, k = verName (p : Int) ((n : Nat) : Int) ++ '/' :: (cd ++ '/' :: q) := by
    intro d m hm hk
    obtain ⟨v, ver, q, hv, rfl⟩ := V.content d m k hm hk
    obtain ⟨n, _, _, rfl⟩ := (V.mem_keys v).1 (mem_mkeys_of_mem hv)
    exact ⟨n, i.contentDir, q, by simp⟩
  rcases h with ⟨d, m, hm, hk⟩ | ⟨a, mm, d, m, h1, h2, h3⟩
  · exact key hm hk
  · obtain ⟨⟨d', m', g1, g2⟩, _⟩ := D.fixity a mm d m k h1 h2 h3
    exact key g1 g2

/-- a place with content is none of a declaration, a sidecar or an ignored file -/
theorem place_other {w : World} {fs : FS} {p N : Nat} {k : Str} {b' : Bytes} (h : Ignored k ∨ SaysSame w fs p N k b') {n : Nat} {cd q : Str} :
    k ≠ verName (p : Int) (n : Int) ++ '/' :: (cd ++ '/' :: q) := by
  intro he
  rcases h with ⟨t, h | h⟩ | h
  · rw [h] at he
    exact verName_ne_word (by decide) (first_part (by decide) (verName_noSlash _ _) he).symm
  · rw [h] at he
    exact verName_ne_word (by decide) (first_part (by decide) (verName_noSlash _ _) he).symm
  · cases h with
    | declaration num hn h _ =>
      have := declName_noSlash hn
      rw [← h, he] at this
      simp at this
    | sidecar x hx h _ =>
      rcases hx with rfl | ⟨m, _, _, rfl⟩
      · have hs : '/' ∉ ([] : Str) ++ "inventory.json.sha512".toList := by decide
        rw [← h, he] at hs
        simp at hs
      · rw [h, List.append_assoc] at he
        have e1 := first_part (verName_noSlash _ _) (verName_noSlash _ _) he
        rw [e1] at he
        have e2 := List.append_cancel_left he
        have e3 : "inventory.json.sha512".toList = cd ++ '/' :: q := List.cons.inj e2 |>.2
        have hs : '/' ∉ "inventory.json.sha512".toList := by decide
        rw [e3] at hs
        simp at hs

theorem version_inv {w : World} {fs : FS} {p N : Nat} {r i : RawInv} {v : Str} (V : ValidObject w fs p N r) (hv : v ∈ mkeys r.inv.versions)
    (hi : InvAt w (subFS fs v) i) : ∃ n, ValidInv p n i.inv ∧ DiskMatches w fs i.inv := by
  obtain ⟨n, h0, hn, rfl⟩ := (V.inv.mem_keys v).1 hv
  obtain ⟨⟨b, _, _, hb, hd, _⟩, _⟩ := hi
  have hb2 := hb
  rw [mget_subFS, under_inv] at hb2
  obtain ⟨i', ⟨c, _, _, hc, hcd, _⟩, _, h3, _, h5⟩ := V.inventories n b h0 hn hb2
  rw [hb] at hc; cases hc
  rw [hd] at hcd; cases hcd
  exact ⟨n, h3, h5⟩

/-- **C189** for any valid object -/
theorem valid_change_iff {w : World} {plain : Bool} {fs : FS} {p N : Nat} {r r' : RawInv} {k : Str} {b b' : Bytes} (V : ValidObject w fs p N r)
    (O : ObjAccepted w plain fs r') (hb : mget fs k = some b) (hne : ∀ a h, w.hash a = some h → h b' ≠ h b) :
    (∃ r', ObjAccepted w plain (mset fs k b') r') ↔ Ignored k ∨ SaysSame w fs p N k b' := by
  have hr : r' = r := by
    obtain ⟨⟨c, _, _, hc, hd, _⟩, _⟩ := O.root
    obtain ⟨c', _, _, hc', hd', _⟩ := V.stored
    rw [hc] at hc'; cases hc'
    rw [hd] at hd'; cases hd'; rfl
  subst hr
  have halg := O.root.2.alg
  rw [C189_change_iff O hb hne V.inv.nonempty (fun v hv i hi => by obtain ⟨n, h1, _⟩ := version_inv V hv hi; exact h1.nonempty)]
  constructor
  · intro H
    by_cases hs : '/' ∈ k
    · obtain ⟨d, q, rfl, hd⟩ := List.eq_append_cons_of_mem hs
      rcases V.dirs d q b hb hd with h | rfl | rfl
      · right
        obtain ⟨⟨v, ver⟩, hv, rfl⟩ := List.mem_map.1 h
        rcases V.versionFiles v ver q b hv hb with rfl | rfl | ⟨t, rfl⟩
        · exact absurd rfl (H.versionInventory v h)
        · rw [halg] at H ⊢
          obtain ⟨n, h0, hn, rfl⟩ := (V.inv.mem_keys v).1 h
          refine .sidecar (verName (p : Int) (n : Int) ++ ['/']) (.inr ⟨n, h0, hn, rfl⟩) (by rw [List.append_assoc]; rfl) (fun c hash hc hh => ?_)
          rw [List.append_assoc] at hc
          exact H.versionSidecar _ h rfl c hash hc hh
        · have hb' : mget fs (v ++ '/' :: r'.inv.contentDir ++ '/' :: t) = some b := by rw [← hb]; simp
          obtain ⟨dg, m, hm, hc⟩ := V.files.complete v ver t b hv hb'
          exact absurd (.inl ⟨dg, m, hm, by simpa using hc⟩) H.listed
      · exact .inl ⟨q, .inl rfl⟩
      · exact .inl ⟨q, .inr rfl⟩
    · right
      obtain ⟨num, hn, _, hx⟩ := V.decl
      rcases hx k b hb hs with rfl | rfl | rfl
      · exact .declaration num hn rfl (H.declaration num hn rfl)
      · exact absurd rfl H.inventory
      · rw [halg] at H ⊢
        exact .sidecar [] (.inl rfl) rfl (fun c hash hc hh => H.sidecar rfl c hash hc hh)
  · intro h
    have hver : ∀ v ∈ mkeys r'.inv.versions, '/' ∉ v := fun v hv => by
      obtain ⟨n, _, _, rfl⟩ := (V.inv.mem_keys v).1 hv
      exact verName_noSlash _ _
    have hign : ∀ v ∈ mkeys r'.inv.versions, ∀ q, ¬ Ignored (v ++ '/' :: q) := fun v hv q => by
      obtain ⟨n, _, _, rfl⟩ := (V.inv.mem_keys v).1 hv
      exact not_ignored_under (verName_noSlash _ _) (verName_ne_word (by decide)) (verName_ne_word (by decide))
    have hl : ∀ {n : Nat} {i : Inv}, ValidInv p n i → DiskMatches w fs i → ¬ ListedIn i k := by
      intro n i V1 D1 hl
      obtain ⟨m, cd, q, he⟩ := listed_place V1 D1 hl
      exact place_other h he
    refine ⟨?_, ?_, hl V.inv V.files, ?_, ?_, ?_, ?_⟩
    · rintro rfl
      rcases h with h | h
      · exact not_ignored_top (by decide) h
      · cases h with
        | declaration num hn h _ => exact absurd (congrArg List.head? h) (by simp [declName])
        | sidecar x hx h _ =>
          have := congrArg (fun s : Str => s.getLast?) h
          simp at this
    · rintro v hv rfl
      rcases h with h | h
      · exact hign v hv _ h
      · cases h with
        | declaration num hn h _ =>
          have := declName_noSlash hn
          rw [← h] at this
          simp at this
        | sidecar x hx h _ =>
          have := congrArg (fun s : Str => s.getLast?) h
          simp at this
    · intro v hv i hi
      obtain ⟨n, h1, h2⟩ := version_inv V hv hi
      exact hl h1 h2
    · rintro rfl c hash hc hh
      rcases h with h | h
      · exact absurd h (not_ignored_top (by decide))
      · cases h with
        | declaration num hn h _ => exact absurd (congrArg List.head? h) (by simp [declName])
        | sidecar x hx h ht =>
          have h0 : x = [] := by
            have := congrArg List.length h
            simpa using this
          subst h0
          exact ht c hash hc hh
    · rintro v hv rfl c hash hc hh
      rcases h with h | h
      · exact absurd h (hign v hv _)
      · cases h with
        | declaration num hn h _ =>
          have := declName_noSlash hn
          rw [← h] at this
          simp at this
        | sidecar x hx h ht =>
          have h0 : v ++ ['/'] = x := by
            have h1 : v ++ ['/'] ++ "inventory.json.sha512".toList = x ++ "inventory.json.sha512".toList := by rw [← h, List.append_assoc]; rfl
            exact List.append_cancel_right h1
          subst h0
          exact ht c hash (by rw [List.append_assoc]; exact hc) hh
    · rintro num hn rfl
      rcases h with h | h
      · exact absurd h (not_ignored_top (declName_noSlash hn))
      · cases h with
        | declaration num' hn' h ht => rw [declName_inj h]; exact ht
        | sidecar x hx h _ =>
          rcases hx with rfl | ⟨m, _, _, rfl⟩
          · exact absurd (congrArg List.head? h) (by simp [declName])
          · have := declName_noSlash hn
            rw [h] at this
            simp at this

/-! ## The whole archive -/

section
variable {S : Setup} {h : Bytes → Str} {s : RootDisk} {H : Str → History} {t : FDir} {id k : Str} {b b' : Bytes}

/-- **C199.** A storage root made and filled by the program validates.  Then the content of one file of an object changes, and its digests with
it.  It still validates if and only if the file lies in `logs` or `extensions`, or is a declaration or sidecar that says the same. -/
theorem C199_change_iff (d : DefaultConfig S) (hc : Codec S.w) (hx : HexHash S.w) (hL : LowerHash S.w) (ht : ∀ t, S.w.time (S.w.time t) = S.w.time t)
    (hh : S.w.hash S.args.alg = some h) (hr : UserRun S UrnId (AutoSession S.w (Deposit S.w h S.args)) s H) (hclean : NoLeftovers s.fs H)
    (T : TreeOf t s.fs) (G : GoodNames t) (hs : Sorted t)
    (hval : ∃ F, validateRoot S.w S.env S.plain S.blank s.fs t = .ok F ∧ NoErrors F)
    (hid : H id ≠ []) (hb : mget s.fs (under (urnFolder id) k) = some b) (hne : ∀ a g, S.w.hash a = some g → g b' ≠ g b) :
    (∃ F, validateRoot S.w S.env S.plain S.blank (mset s.fs (under (urnFolder id) k) b') t = .ok F ∧ NoErrors F) ↔
      Ignored k ∨ SaysSame S.w (subFS s.fs (urnFolder id)) 0 (H id).length k b' := by
  have R := tidy_run d hr
  obtain ⟨hu, C, r, V, A⟩ := run_objects d hc hx hL ht hh hr id hid
  have hold := (validateRoot_iff R.declared R.nodup).1 hval
  have hlist := C197_listed d hc hx hL ht hh hr hclean T G hs
  have hthis : [urnFolder id] ∈ getObjectFolders t := (hlist _).2 ⟨id, hid, rfl⟩
  have hsome : ∀ {x y}, mget (mset s.fs (under (urnFolder id) k) b') x = some y → ∃ z, mget s.fs x = some z := by
    intro x y hy
    by_cases he : x = under (urnFolder id) k
    · rw [he]; exact ⟨b, hb⟩
    · rw [mget_mset_ne _ (Ne.symm he)] at hy; exact ⟨y, hy⟩
  have hk : ∀ n, '/' ∉ n → mget (mset s.fs (under (urnFolder id) k) b') n = mget s.fs n := fun n hn =>
    mget_mset_ne _ (by rintro rfl; unfold under at hn; simp at hn) _
  have D' : RootDeclared (mset s.fs (under (urnFolder id) k) b') S.new.init.version := by
    refine ⟨R.declared.supported, ?_, fun n c hc hn => R.declared.only n c (by rw [← hk n hn]; exact hc) hn⟩
    obtain ⟨c, hc, ht⟩ := R.declared.content
    refine ⟨c, ?_, ht⟩
    rw [hk _ ?_]; · exact hc
    have := R.declared.supported
    simp only [List.mem_cons, List.not_mem_nil, or_false] at this
    rcases this with h1 | h1 | h1 <;> rw [h1] <;> decide
  have hnd : (mkeys (mset s.fs (under (urnFolder id) k) b')).Nodup := mkeys_mset_nodup R.nodup _ _
  obtain ⟨r0, O⟩ := (C184_accepted_iff hL).1 (hold _ hthis).1
  have O : ObjAccepted S.w S.plain (subFS s.fs (urnFolder id)) r0 := O
  have hb2 : mget (subFS s.fs (urnFolder id)) k = some b := by rw [mget_subFS]; exact hb
  have key := valid_change_iff V O hb2 hne
  rw [validateRoot_iff D' hnd]
  constructor
  · intro hall
    have h1 := (C184_accepted_iff hL).1 (hall _ hthis).1
    rw [show folderPath [urnFolder id] = urnFolder id from rfl, subFS_mset] at h1
    exact key.1 h1
  · intro hi p hp
    refine ⟨?_, fun u hu' => (hold p hp).2 u ⟨hu'.1, hsome hu'.2.choose_spec⟩⟩
    obtain ⟨id', hid', rfl⟩ := (hlist p).1 hp
    by_cases he : id' = id
    · subst he
      refine (C184_accepted_iff hL).2 ?_
      rw [show folderPath [urnFolder id'] = urnFolder id' from rfl, subFS_mset]
      exact key.2 hi
    · have hu' := (run_objects d hc hx hL ht hh hr id' hid').1
      have h1 := (hold _ hp).1
      unfold Accepted at h1 ⊢
      rw [C184_accepted_iff hL] at h1 ⊢
      rw [show folderPath [urnFolder id'] = urnFolder id' from rfl] at h1 ⊢
      rw [subFS_mset_other]
      · exact h1
      · cases hf : stripFolder (urnFolder id') (under (urnFolder id) k) with
        | none => rfl
        | some q =>
          have := stripFolder_eq_some.1 hf
          exact absurd (first_part (urnFolder_no_slash hu) (urnFolder_no_slash hu') this) (urn_apart hu hu' (Ne.symm he)).1

/-- **C199, what is noticed**: a change of anything below a folder of a version, and of the inventories. -/
theorem C199_noticed_partial (d : DefaultConfig S) (hc : Codec S.w) (hx : HexHash S.w) (hL : LowerHash S.w) (ht : ∀ t, S.w.time (S.w.time t) = S.w.time t)
    (hh : S.w.hash S.args.alg = some h) (hr : UserRun S UrnId (AutoSession S.w (Deposit S.w h S.args)) s H) (hclean : NoLeftovers s.fs H)
    (T : TreeOf t s.fs) (G : GoodNames t) (hs : Sorted t)
    (hval : ∃ F, validateRoot S.w S.env S.plain S.blank s.fs t = .ok F ∧ NoErrors F)
    (hid : H id ≠ []) (hb : mget s.fs (under (urnFolder id) k) = some b) (hne : ∀ a g, S.w.hash a = some g → g b' ≠ g b)
    (hk : k = "inventory.json".toList ∨ ∃ n : Nat, k = verName 0 (n : Int) ++ "/inventory.json".toList ∨
      ∃ cd q, k = verName 0 (n : Int) ++ '/' :: (cd ++ '/' :: q)) :
    ¬ ∃ F, validateRoot S.w S.env S.plain S.blank (mset s.fs (under (urnFolder id) k) b') t = .ok F ∧ NoErrors F := by
  rw [C199_change_iff d hc hx hL ht hh hr hclean T G hs hval hid hb hne]
  intro hi
  rcases hk with rfl | ⟨n, rfl | ⟨cd, q, rfl⟩⟩
  · rcases hi with hi | hi
    · exact not_ignored_top (by decide) hi
    · cases hi with
      | declaration num hn h _ => exact absurd (congrArg List.head? h) (by simp [declName])
      | sidecar x hx h _ =>
        have := congrArg (fun s : Str => s.getLast?) h
        simp at this
  · rcases hi with hi | hi
    · exact not_ignored_under (verName_noSlash _ _) (verName_ne_word (by decide)) (verName_ne_word (by decide)) hi
    · cases hi with
      | declaration num hn h _ =>
        have := declName_noSlash hn
        rw [← h] at this
        simp at this
      | sidecar x hx h _ =>
        have := congrArg (fun s : Str => s.getLast?) h
        simp at this
  · exact place_other (p := 0) hi rfl

end

/-- **C199 in full**: a change of any file of an object outside of `logs` and `extensions` is noticed. -/
def C199_full : Prop := ∀ (S : Setup) (h : Bytes → Str) (s : RootDisk) (H : Str → History) (t : FDir), DefaultConfig S → Codec S.w → HexHash S.w →
  LowerHash S.w → (∀ t, S.w.time (S.w.time t) = S.w.time t) → S.w.hash S.args.alg = some h →
  UserRun S UrnId (AutoSession S.w (Deposit S.w h S.args)) s H → NoLeftovers s.fs H → TreeOf t s.fs → GoodNames t → Sorted t →
  (∃ F, validateRoot S.w S.env S.plain S.blank s.fs t = .ok F ∧ NoErrors F) →
  ∀ id k b b', H id ≠ [] → mget s.fs (under (urnFolder id) k) = some b → (∀ a g, S.w.hash a = some g → g b' ≠ g b) → ¬ Ignored k →
    ¬ ∃ F, validateRoot S.w S.env S.plain S.blank (mset s.fs (under (urnFolder id) k) b') t = .ok F ∧ NoErrors F

/-! ## Case -/

theorem exKeep_length {b b' : Bytes} (hl : b'.length ≠ b.length) : ∀ a g, exKeep.hash a = some g → g b' ≠ g b := by
  intro a g hg he
  have hg : (if a = "sha512".toList then some rtHash else none) = some g := hg
  split at hg
  · cases hg
    have := congrArg List.length he
    simp [rtHash] at this
    exact hl this
  · cases hg

theorem avH_a : avH "a".toList ≠ [] := by unfold avH; rw [if_pos rfl]; exact List.cons_ne_nil _ _

/-- **C199**: a declaration that gets another end of line passes. -/
theorem C199_full_fails : ¬ C199_full := by
  intro hf
  have hb : mget avDisk.fs (under (urnFolder "a".toList) (declName "1.1".toList)) = some (asBytes (objDecl ++ "1.1".toList ++ "\n".toList)) := by
    decide +kernel
  have hne := exKeep_length (b := asBytes (objDecl ++ "1.1".toList ++ "\n".toList)) (b' := asBytes (objDecl ++ "1.1".toList ++ "\r\n".toList)) (by decide)
  have hn : IsVersionNum "1.1".toList := ⟨"1".toList, "1".toList, by decide, by decide, by decide, by decide, rfl⟩
  refine hf avSetup rtHash avDisk avH avTree avSetup_default (codecWorld_codec _) (codecWorld_hex _) exKeep_lower (fun _ => rfl)
    rtHash_eq av_run av_clean av_tree av_good.1 av_good.2 av_valid "a".toList (declName "1.1".toList) _ _ avH_a hb hne (declName_ignored hn) ?_
  exact (C199_change_iff (S := avSetup) (h := rtHash) avSetup_default (codecWorld_codec _) (codecWorld_hex _) exKeep_lower (fun _ => rfl)
    rtHash_eq av_run av_clean av_tree av_good.1 av_good.2 av_valid avH_a hb hne).2 (.inr (.declaration _ hn rfl (.inr (by decide))))

/-- the hypotheses of C199 are met: a content file that has become longer is noticed -/
example : ∃ b, mget avDisk.fs "a/v1/content/e".toList = some b ∧
    ¬ ∃ F, validateRoot exKeep exEnv false (blankInv [] []) (mset avDisk.fs "a/v1/content/e".toList (b ++ [0])) avTree = .ok F ∧ NoErrors F := by
  obtain ⟨b, hb⟩ := Option.ne_none_iff_exists'.1 (av_mem (show "a/v1/content/e".toList ∈ mkeys avDisk.fs by rw [av_keys]; decide))
  exact ⟨b, hb, C199_noticed_partial (S := avSetup) (h := rtHash) (id := "a".toList) (k := "v1/content/e".toList) avSetup_default (codecWorld_codec _)
    (codecWorld_hex _) exKeep_lower (fun _ => rfl) rtHash_eq av_run av_clean av_tree av_good.1 av_good.2 av_valid avH_a hb
    (exKeep_length (by simp)) (.inr ⟨1, .inr ⟨"content".toList, "e".toList, by decide⟩⟩)⟩

end Gocfl
