import Verif.Props.OkSteps
import Verif.Props.ExtractHistory
import Verif.Props.NoFalseAlarm

/-! # What the tool writes is valid (C80) -/

namespace Gocfl

/-! ## Fixity entries -/

theorem mem_mset_key {K V : Type} [DecidableEq K] {m : AMap K V} {k a : K} {v : V} (h : a ∈ mkeys (mset m k v)) :
    a = k ∨ a ∈ mkeys m := by
  obtain ⟨b, hb⟩ := mem_mkeys_iff.1 h
  rcases mem_mset_of hb with h | h
  · cases h; exact Or.inl rfl
  · exact Or.inr (mem_mkeys_of_mem h)

theorem mgetD_mem {m : DMap} {k c : Str} (h : c ∈ mgetD m k) : ∃ l, (k, l) ∈ m ∧ c ∈ l := by
  unfold mgetD at h
  cases hg : mget m k with
  | none => rw [hg] at h; cases h
  | some l => rw [hg] at h; exact ⟨l, mem_of_mget hg, h⟩

theorem getD_mem {f : AMap Str DMap} {a : Str} {e : Str × List Str} (h : e ∈ (mget f a).getD []) :
    ∃ mm, (a, mm) ∈ f ∧ e ∈ mm := by
  cases hg : mget f a with
  | none => rw [hg] at h; cases h
  | some mm => rw [hg] at h; exact ⟨mm, mem_of_mget hg, h⟩

/-- the fixity block after recording a checksum -/
theorem addFixity_eq (inv : Inv) (mp : Str) (x : Str × Str) :
    (addFixity inv mp x).fixity = inv.fixity ∨
    ∃ l, (addFixity inv mp x).fixity = mset inv.fixity x.1 (mset ((mget inv.fixity x.1).getD []) x.2 l) ∧
      mp ∈ l ∧ ∀ c ∈ l, c = mp ∨ c ∈ mgetD ((mget inv.fixity x.1).getD []) x.2 := by
  unfold addFixity
  split
  · exact Or.inl rfl
  · right
    simp only
    split
    · rename_i h
      exact ⟨_, rfl, h, fun c hc => Or.inr hc⟩
    · refine ⟨_, rfl, by simp, fun c hc => ?_⟩
      rcases List.mem_append.1 hc with h | h
      · exact Or.inr h
      · exact Or.inl (by simpa using h)

/-- `f` after recording the checksums `cs` of the content path `mp` -/
structure FixGrow (f f' : AMap Str DMap) (mp : Str) (cs : AMap Str Str) : Prop where
  paths : ∀ a mm d m c, (a, mm) ∈ f' → (d, m) ∈ mm → c ∈ m →
    (∃ mm0 m0, (a, mm0) ∈ f ∧ (d, m0) ∈ mm0 ∧ c ∈ m0) ∨ ((a, d) ∈ cs ∧ c = mp)
  nonempty : (∀ a mm d m, (a, mm) ∈ f → (d, m) ∈ mm → m ≠ []) → ∀ a mm d m, (a, mm) ∈ f' → (d, m) ∈ mm → m ≠ []
  digests : ∀ a mm d, (a, mm) ∈ f' → d ∈ mkeys mm → (∃ mm0, (a, mm0) ∈ f ∧ d ∈ mkeys mm0) ∨ (a, d) ∈ cs
  algs : ∀ a ∈ mkeys f', a ∈ mkeys f ∨ a ∈ mkeys cs

theorem FixGrow.refl (f : AMap Str DMap) (mp : Str) : FixGrow f f mp [] :=
  ⟨fun _ _ _ _ _ h1 h2 h3 => Or.inl ⟨_, _, h1, h2, h3⟩, id, fun _ _ _ h1 h2 => Or.inl ⟨_, h1, h2⟩, fun _ h => Or.inl h⟩

theorem FixGrow.trans {f g k : AMap Str DMap} {mp : Str} {cs ds : AMap Str Str} (h : FixGrow f g mp cs)
    (h' : FixGrow g k mp ds) : FixGrow f k mp (cs ++ ds) where
  paths a mm d m c h1 h2 h3 := by
    rcases h'.paths a mm d m c h1 h2 h3 with ⟨mm0, m0, k1, k2, k3⟩ | ⟨k1, k2⟩
    · rcases h.paths a mm0 d m0 c k1 k2 k3 with h | ⟨h, h2⟩
      · exact Or.inl h
      · exact Or.inr ⟨List.mem_append.2 (Or.inl h), h2⟩
    · exact Or.inr ⟨List.mem_append.2 (Or.inr k1), k2⟩
  nonempty hn := h'.nonempty (h.nonempty hn)
  digests a mm d h1 h2 := by
    rcases h'.digests a mm d h1 h2 with ⟨mm0, k1, k2⟩ | k
    · rcases h.digests a mm0 d k1 k2 with h | h
      · exact Or.inl h
      · exact Or.inr (List.mem_append.2 (Or.inl h))
    · exact Or.inr (List.mem_append.2 (Or.inr k))
  algs a ha := by
    have hap : a ∈ mkeys (cs ++ ds) ↔ a ∈ mkeys cs ∨ a ∈ mkeys ds := by
      unfold mkeys; rw [List.map_append, List.mem_append]
    rw [hap]
    rcases h'.algs a ha with h1 | h1
    · rcases h.algs a h1 with h | h
      · exact Or.inl h
      · exact Or.inr (Or.inl h)
    · exact Or.inr (Or.inr h1)

theorem addFixity_grow (inv : Inv) (mp : Str) (x : Str × Str) :
    FixGrow inv.fixity (addFixity inv mp x).fixity mp [x] := by
  rcases addFixity_eq inv mp x with h | ⟨l, h, h1, h2⟩
  · rw [h]
    have := (FixGrow.refl inv.fixity mp).trans (k := inv.fixity) (ds := [x])
      ⟨fun _ _ _ _ _ h1 h2 h3 => Or.inl ⟨_, _, h1, h2, h3⟩, id, fun _ _ _ h1 h2 => Or.inl ⟨_, h1, h2⟩, fun _ h => Or.inl h⟩
    simpa using this
  · rw [h]
    refine ⟨?_, ?_, ?_, ?_⟩
    · intro a mm d m c ha hd hc
      rcases mem_mset_of ha with e | ha
      · cases e
        rcases mem_mset_of hd with e | hd
        · cases e
          rcases h2 c hc with rfl | hc
          · right; exact ⟨List.mem_singleton.2 rfl, rfl⟩
          · left
            obtain ⟨l0, h3, h4⟩ := mgetD_mem hc
            obtain ⟨mm0, h5, h6⟩ := getD_mem h3
            exact ⟨mm0, l0, h5, h6, h4⟩
        · left
          obtain ⟨mm0, h5, h6⟩ := getD_mem hd
          exact ⟨mm0, m, h5, h6, hc⟩
      · exact Or.inl ⟨mm, m, ha, hd, hc⟩
    · intro hn a mm d m ha hd
      rcases mem_mset_of ha with e | ha
      · cases e
        rcases mem_mset_of hd with e | hd
        · cases e; exact List.ne_nil_of_mem h1
        · obtain ⟨mm0, h5, h6⟩ := getD_mem hd
          exact hn _ mm0 d m h5 h6
      · exact hn a mm d m ha hd
    · intro a mm d ha hd
      rcases mem_mset_of ha with e | ha
      · cases e
        rcases mem_mset_key hd with rfl | hd
        · exact Or.inr (List.mem_singleton.2 rfl)
        · obtain ⟨m, hm⟩ := mem_mkeys_iff.1 hd
          obtain ⟨mm0, h5, h6⟩ := getD_mem hm
          exact Or.inl ⟨mm0, h5, mem_mkeys_of_mem h6⟩
      · exact Or.inl ⟨mm, ha, hd⟩
    · intro a ha
      rcases mem_mset_key ha with rfl | ha
      · exact Or.inr (List.mem_singleton.2 rfl)
      · exact Or.inl ha

theorem addFixity_fold_grow (inv : Inv) (mp : Str) (cs : AMap Str Str) :
    FixGrow inv.fixity (cs.foldl (fun i c => addFixity i mp c) inv).fixity mp cs := by
  induction cs generalizing inv with
  | nil => exact FixGrow.refl _ _
  | cons x cs ih => exact (addFixity_grow inv mp x).trans (ih (addFixity inv mp x))

theorem addFile_grow {inv inv' : Inv} {ns : List Str} {mp : Str} {cs : AMap Str Str}
    (h : addFile inv ns mp cs = .ok inv') : FixGrow inv.fixity inv'.fixity mp cs := by
  obtain ⟨dig, hd, h⟩ := addFile_ok h
  have : inv'.fixity = (cs.foldl (fun i c => addFixity i mp c) inv).fixity := by
    refine foldlM_inv (P := fun i => i.fixity = (cs.foldl (fun i c => addFixity i mp c) inv).fixity) ?_ _ _ rfl h
    intro b a b' _ hb hab
    obtain ⟨_, _, _, _, _, _, _, _, hf, _⟩ := addName_ok hab
    exact hf.trans hb
  rw [this]
  exact addFixity_fold_grow inv mp cs

/-- the content path of an added file is listed, whatever was listed stays listed -/
theorem addFile_lists {inv inv' : Inv} {ns : List Str} {mp : Str} {cs : AMap Str Str}
    (h : addFile inv ns mp cs = .ok inv') (hk : (mkeys inv.manifest).Nodup) :
    (ns ≠ [] → mp ≠ [] → Listed inv' mp) ∧ ∀ c, Listed inv c → Listed inv' c := by
  obtain ⟨dig, hd, h⟩ := addFile_ok h
  obtain ⟨_, _, hm, _⟩ := addFixity_fold inv mp cs
  have hmono : ∀ {m : DMap} {d c : Str}, (mkeys m).Nodup → (∃ e l, (e, l) ∈ m ∧ c ∈ l) →
      ∃ e l, (e, l) ∈ manAdd m mp d ∧ c ∈ l := by
    rintro m d c hn ⟨e, l, h1, h2⟩
    unfold manAdd
    split
    · by_cases he : e = d
      · subst he
        refine ⟨e, mgetD m e ++ [mp], (mem_mset_iff hn).2 (Or.inl rfl), ?_⟩
        unfold mgetD
        rw [mget_of_mem hn h1]
        exact List.mem_append.2 (Or.inl h2)
      · exact ⟨e, l, (mem_mset_iff hn).2 (Or.inr ⟨he, h1⟩), h2⟩
    · exact ⟨e, l, h1, h2⟩
  generalize cs.foldl (fun i c => addFixity i mp c) inv = i0 at h hm
  have h0 : (∀ c, Listed inv c → Listed i0 c) := by
    intro c hc; unfold Listed; rw [hm]; exact hc
  have hk0 : (mkeys i0.manifest).Nodup := by rw [hm]; exact hk
  clear hm
  have main : ∀ (ns : List Str) (i0 : Inv), (mkeys i0.manifest).Nodup →
      ns.foldlM (fun i n => addName i mp (toLower dig) n) i0 = .ok inv' →
      (ns ≠ [] → mp ≠ [] → Listed inv' mp) ∧ ∀ c, Listed i0 c → Listed inv' c := by
    intro ns
    induction ns with
    | nil => intro i0 _ h; cases h; exact ⟨fun h => absurd rfl h, fun c hc => hc⟩
    | cons n ns ih =>
      intro i0 hk0 h
      rw [List.foldlM_cons] at h
      obtain ⟨i1, h1, h⟩ := res_bind_eq_ok.1 h
      obtain ⟨_, _, _, _, _, _, _, hm1, _⟩ := addName_ok h1
      have hk1 : (mkeys i1.manifest).Nodup := by rw [hm1]; exact manAdd_nodup hk0 _ _
      obtain ⟨_, h3⟩ := ih i1 hk1 h
      refine ⟨fun _ hmp => h3 mp ?_, fun c hc => h3 c ?_⟩
      · refine ⟨toLower dig, mgetD i0.manifest (toLower dig) ++ [mp], ?_, by simp⟩
        rw [hm1]
        unfold manAdd
        rw [if_pos hmp]
        exact (mem_mset_iff hk0).2 (Or.inl rfl)
      · unfold Listed; rw [hm1]; exact hmono hk0 hc
  obtain ⟨h1, h2⟩ := main ns i0 hk0 h
  exact ⟨h1, fun c hc => h2 c (h0 c hc)⟩

theorem checksums_mem {w : World} {algs : List Str} {data : Bytes} {cs : AMap Str Str}
    (h : checksums w algs data = some cs) {a d : Str} (hd : (a, d) ∈ cs) :
    ∃ f, w.hash a = some f ∧ d = f data := by
  unfold checksums at h
  induction algs generalizing cs with
  | nil => simp at h; subst h; cases hd
  | cons x algs ih =>
    rw [List.mapM_cons] at h
    cases hx : w.hash x with
    | none => rw [hx] at h; cases h
    | some f =>
      rw [hx] at h
      cases hr : algs.mapM (fun a => (w.hash a).map (fun h => (a, h data))) with
      | none => rw [hr] at h; cases h
      | some r =>
        rw [hr] at h
        cases h
        rcases List.mem_cons.1 hd with e | hd
        · cases e; exact ⟨f, hx, rfl⟩
        · exact ih hr hd

/-! ## The state of a deposit -/

/-- an object in a session that opened the version `i0` on the inventory `inv0`, all steps having succeeded -/
structure Dep (w : World) (inv0 i0 : Inv) (o : Obj) : Prop where
  run : ∃ ops, run i0 ops = .ok o.inv ∧ countNew ops = 0 ∧ ∀ ns mp cs, Op.add ns mp cs ∈ ops → mp ≠ []
  blocks : ∃ bl, o.trace = render bl ∧
    (∀ e ∈ bl, (∃ x, e.1 = extPath x) ∨ ((∃ q, InsideName q ∧ e.1 = buildManifestName i0 q) ∧ Listed o.inv e.1)) ∧
    ∀ a mm d m c, (a, mm) ∈ o.inv.fixity → (d, m) ∈ mm → c ∈ m →
      (∃ mm0 m0, (a, mm0) ∈ inv0.fixity ∧ (d, m0) ∈ mm0 ∧ c ∈ m0) ∨
      ∃ b f, (c, some b) ∈ bl ∧ w.hash a = some f ∧ f b = d ∧ Listed o.inv c
  mono : ∀ c, Listed inv0 c → Listed o.inv c
  new : ∀ c, Listed o.inv c → Listed inv0 c ∨ ∃ q, InsideName q ∧ c = buildManifestName i0 q
  algs : ∀ a ∈ mkeys o.inv.fixity, a ∈ mkeys inv0.fixity ∨ ∃ f, w.hash a = some f
  nonempty : ∀ a mm d m, (a, mm) ∈ o.inv.fixity → (d, m) ∈ mm → m ≠ []
  lower : ∀ a mm d, (a, mm) ∈ o.inv.fixity → d ∈ mkeys mm → toLower d = d
  keys : (mkeys o.inv.manifest).Nodup

theorem Op.Plain.count {op : Op} (h : op.Plain) : countNew [op] = 0 := by
  cases op <;> first | rfl | exact absurd h id

theorem Op.Plain.frame {op : Op} (h : op.Plain) {a b : Inv} (hs : step a op = .ok b) :
    b.manifest = a.manifest ∧ b.fixity = a.fixity := by
  cases op with
  | newVersion m u a t => exact absurd h id
  | add ns mp cs => exact absurd h id
  | delete p => exact ⟨deleteFile_manifest hs, deleteFile_fixity hs⟩
  | rename x y =>
    obtain ⟨s, _, rfl⟩ := renameFile_ok hs
    exact ⟨setHeadState_manifest _ _, setHeadState_fixity _ _⟩
  | copy d c =>
    obtain ⟨_, s, _, ⟨_, rfl⟩ | ⟨_, rfl⟩⟩ := copyFile_ok hs
    · exact ⟨rfl, rfl⟩
    · exact ⟨setHeadState_manifest _ _, setHeadState_fixity _ _⟩
  | echo ex pre =>
    have hs : echoDelete a ex pre = .ok b := hs
    unfold echoDelete at hs
    split at hs
    · cases hs
    · exact foldlM_inv (P := fun i => i.manifest = a.manifest ∧ i.fixity = a.fixity)
        (fun b _ b' _ hb hab => ⟨(deleteFile_manifest hab).trans hb.1, (deleteFile_fixity hab).trans hb.2⟩) _ _ ⟨rfl, rfl⟩ hs

theorem Dep.headOnly {w : World} {inv0 i0 : Inv} {o : Obj} (h : Dep w inv0 i0 o) : HeadOnly i0 o.inv := by
  obtain ⟨ops, h1, h2, _⟩ := h.run
  exact run_headOnly h1 h2

theorem listed_congr {a b : Inv} (h : a.manifest = b.manifest) (c : Str) : Listed a c ↔ Listed b c := by
  unfold Listed; rw [h]

/-- steps that do not change manifest, fixity -/
theorem Dep.frame {w : World} {inv0 i0 : Inv} {o o' : Obj} (h : Dep w inv0 i0 o)
    (hr : ∃ ops, Gocfl.run o.inv ops = .ok o'.inv ∧ countNew ops = 0 ∧ ∀ ns mp cs, Op.add ns mp cs ∈ ops → mp ≠ [])
    (hm : o'.inv.manifest = o.inv.manifest) (hf : o'.inv.fixity = o.inv.fixity)
    {ex : List Block} (ht : o'.trace = o.trace ++ render ex) (hex : ∀ e ∈ ex, ∃ x, e.1 = extPath x) : Dep w inv0 i0 o' := by
  obtain ⟨⟨ops, r1, r2, r3⟩, ⟨bl, b1, b2, b3⟩, h3, h4, h5, h6, h7, h8⟩ := h
  obtain ⟨ops', r1', r2', r3'⟩ := hr
  have hl := listed_congr hm
  refine ⟨⟨ops ++ ops', by rw [run_append, r1, res_bind_ok, r1'], by rw [countNew_append]; omega, ?_⟩,
    ⟨bl ++ ex, by rw [ht, b1, render_append], ?_, ?_⟩, ?_, ?_, ?_, ?_, ?_, by rw [hm]; exact h8⟩
  · intro ns mp cs hx
    rcases List.mem_append.1 hx with hx | hx
    · exact r3 _ _ _ hx
    · exact r3' _ _ _ hx
  · intro e he
    rcases List.mem_append.1 he with he | he
    · rcases b2 e he with h | ⟨h, h'⟩
      · exact Or.inl h
      · exact Or.inr ⟨h, (hl _).2 h'⟩
    · exact Or.inl (hex e he)
  · rw [hf]
    intro a mm d m c k1 k2 k3
    rcases b3 a mm d m c k1 k2 k3 with h | ⟨b, f, h1, h2, h3, h4⟩
    · exact Or.inl h
    · exact Or.inr ⟨b, f, List.mem_append.2 (Or.inl h1), h2, h3, (hl _).2 h4⟩
  · exact fun c hc => (hl c).2 (h3 c hc)
  · exact fun c hc => h4 c ((hl c).1 hc)
  · rw [hf]; exact h5
  · rw [hf]; exact h6
  · rw [hf]; exact h7

theorem Dep.step {w : World} {U : Str → Str → Prop} (hL : LowerHash w)
    (hU : ∀ p a, U p a → ∀ i, w.manifestPath p a = .ok i → InsideName i) {inv0 i0 : Inv} {o o' : Obj}
    (h : Dep w inv0 i0 o) (hs : OkStep w U o o') : Dep w inv0 i0 o' := by
  cases hs with
  | same hi ht =>
    exact h.frame ⟨[], by rw [hi]; rfl, rfl, by simp⟩ (by rw [hi]) (by rw [hi]) (ex := []) (by rw [ht]; simp [render]) (by simp)
  | op op hp hi ht =>
    obtain ⟨h1, h2⟩ := hp.frame hi
    refine h.frame ⟨[op], by rw [run_single]; exact hi, hp.count, ?_⟩ h1 h2 (ex := []) (by rw [ht]; simp [render]) (by simp)
    intro ns mp cs hx
    cases List.mem_singleton.1 hx
    exact absurd hp id
  | ext n d hi ht =>
    refine h.frame ⟨[], by rw [hi]; rfl, rfl, by simp⟩ (by rw [hi]) (by rw [hi]) (ex := [(extPath n, some d)])
      (by rw [ht, render_single]) ?_
    intro e he
    cases List.mem_singleton.1 he
    exact ⟨n, rfl⟩
  | add names p a i data cs hn hu hm hc hi ht =>
    have hin := hU p a hu i hm
    have hbn : buildManifestName o.inv i = buildManifestName i0 i := buildManifestName_congr h.headOnly i
    have hne : buildManifestName i0 i ≠ [] := C13_content_path_ne_nil _ _
    rw [hbn] at hi ht
    obtain ⟨⟨ops, r1, r2, r3⟩, ⟨bl, b1, b2, b3⟩, h3, h4, h5, h6, h7, h8⟩ := h
    obtain ⟨l1, l2⟩ := addFile_lists hi h8
    have hmp := l1 hn hne
    have hg := addFile_grow hi
    obtain ⟨dig, _, hent⟩ := addFile_entries hi
    refine ⟨⟨ops ++ [.add names (buildManifestName i0 i) cs], by rw [run_append, r1, res_bind_ok, run_single]; exact hi,
      by rw [countNew_append, r2]; rfl, ?_⟩,
      ⟨bl ++ [(buildManifestName i0 i, some data)], by rw [ht, b1, render_append, render_single], ?_, ?_⟩, ?_, ?_, ?_, ?_, ?_, ?_⟩
    · intro ns mp cs' hx
      rcases List.mem_append.1 hx with hx | hx
      · exact r3 _ _ _ hx
      · cases List.mem_singleton.1 hx; exact hne
    · intro e he
      rcases List.mem_append.1 he with he | he
      · rcases b2 e he with h | ⟨h, h'⟩
        · exact Or.inl h
        · exact Or.inr ⟨h, l2 _ h'⟩
      · cases List.mem_singleton.1 he
        exact Or.inr ⟨⟨i, hin, rfl⟩, hmp⟩
    · intro a' mm d m c k1 k2 k3
      rcases hg.paths a' mm d m c k1 k2 k3 with ⟨mm0, m0, q1, q2, q3⟩ | ⟨q1, rfl⟩
      · rcases b3 a' mm0 d m0 c q1 q2 q3 with h | ⟨b, f, h1, h2, h3, h4⟩
        · exact Or.inl h
        · exact Or.inr ⟨b, f, List.mem_append.2 (Or.inl h1), h2, h3, l2 _ h4⟩
      · obtain ⟨f, f1, f2⟩ := checksums_mem hc q1
        exact Or.inr ⟨data, f, List.mem_append.2 (Or.inr (by simp)), f1, f2.symm, hmp⟩
    · exact fun c hc => l2 c (h3 c hc)
    · rintro c ⟨d, m, hd, hcm⟩
      rcases hent d m c hd hcm with ⟨l0, k1, k2⟩ | ⟨_, rfl⟩
      · exact h4 c ⟨d, l0, k1, k2⟩
      · exact Or.inr ⟨i, hin, rfl⟩
    · intro a' ha
      rcases hg.algs a' ha with h | h
      · exact h5 a' h
      · obtain ⟨d, hd⟩ := mem_mkeys_iff.1 h
        obtain ⟨f, f1, _⟩ := checksums_mem hc hd
        exact Or.inr ⟨f, f1⟩
    · exact hg.nonempty h6
    · intro a' mm d ha hd
      rcases hg.digests a' mm d ha hd with ⟨mm0, q1, q2⟩ | q
      · exact h7 a' mm0 d q1 q2
      · obtain ⟨f, f1, rfl⟩ := checksums_mem hc q
        exact hL a' f data f1
    · exact step_manifest_nodup (op := .add names (buildManifestName i0 i) cs) h8 hi


/-! ## Inventories the tool keeps -/

/-- A valid inventory in memory: `N` versions (0: none yet) named with padding `p`. -/
structure InvOk (p N : Nat) (inv : Inv) : Prop where
  wf : WF inv N
  pad : inv.paddingLength = (p : Int)
  keys : FixKeys inv
  id : inv.id ≠ []
  spec : inv.spec ≠ []
  contentDirectory : inv.contentDirectory ≠ ".".toList ∧ inv.contentDirectory ≠ "..".toList ∧ '/' ∉ inv.contentDirectory
  alg : inv.digestAlg = "sha512".toList ∨ inv.digestAlg = "sha256".toList
  used : ManifestReferenced inv
  covered : RefsResolve inv
  fixity : ∀ a mm d m, (a, mm) ∈ inv.fixity → (d, m) ∈ mm → m ≠ []
  lower : ∀ a mm d, (a, mm) ∈ inv.fixity → d ∈ mkeys mm → toLower d = d
  paths : AllPathsSafe inv
  noConflict : ¬ LogicalConflict inv
  content : ∀ d m c, (d, m) ∈ inv.manifest → c ∈ m →
    ∃ v ver q, (v, ver) ∈ inv.versions ∧ c = v ++ '/' :: inv.contentDir ++ '/' :: q

theorem InvOk.cdir {p N : Nat} {inv : Inv} (h : InvOk p N inv) : ValidComp inv.contentDir := by
  unfold Inv.contentDir
  split
  · exact ⟨by decide, by decide, by decide, by decide⟩
  · rename_i hne
    exact ⟨hne, h.contentDirectory⟩

theorem InvOk.algSlash {p N : Nat} {inv : Inv} (h : InvOk p N inv) : '/' ∉ inv.digestAlg := by
  rcases h.alg with h | h <;> rw [h] <;> decide

theorem InvOk.mem_keys {p N : Nat} {inv : Inv} (h : InvOk p N inv) (v : Str) :
    v ∈ mkeys inv.versions ↔ ∃ k : Nat, 1 ≤ k ∧ k ≤ N ∧ v = verName (p : Int) (k : Int) := by
  rw [h.wf.1.mem_keys, h.pad]

theorem InvOk.versionFile {p N : Nat} {inv : Inv} (h : InvOk p N inv) {v : Str} {ver : Version} (hv : (v, ver) ∈ inv.versions)
    (x : Str) : VersionFile inv N (v ++ '/' :: x) := by
  obtain ⟨k, h1, h2, rfl⟩ := (h.mem_keys v).1 (mem_mkeys_of_mem hv)
  exact ⟨k, h1, h2, x, by rw [h.pad]⟩

theorem InvOk.listed {p N : Nat} {inv : Inv} (h : InvOk p N inv) {c : Str} (hc : Listed inv c) : VersionFile inv N c := by
  obtain ⟨d, m, hd, hm⟩ := hc
  obtain ⟨v, ver, q, hv, rfl⟩ := h.content d m c hd hm
  rw [List.append_assoc, List.cons_append]
  exact h.versionFile hv _

theorem InvOk.valid {p N : Nat} {inv : Inv} (h : InvOk p N inv) (h0 : 0 < N) (hw : 0 < p → (fmtNat N).length ≤ p) :
    ValidInv p N inv where
  id := h.id
  spec := h.spec
  contentDirectory := h.contentDirectory
  some := h0
  width := hw
  versions := by have := h.wf.1.1; rwa [h.pad] at this
  head := by rw [h.wf.1.head_eq h0, h.pad]
  manifestKeys := h.keys.manifest
  stateKeys := h.wf.2
  fixityKeys a m ha := by
    have : (mkeys m).map toLower = mkeys m := by
      conv_rhs => rw [← List.map_id (mkeys m)]
      exact List.map_congr_left (fun d hd => h.lower a m d ha hd)
    rw [this]
    exact h.keys.blocks a m ha
  used d m hd := h.used d m hd
  covered v ver d ps hv hd := h.covered.1 v ver d hv (mem_mkeys_of_mem hd)
  nonempty := ⟨h.covered.2, h.fixity⟩
  paths := h.paths
  noConflict := h.noConflict
  content := h.content

/-- the logical paths of the last version are safe and do not conflict -/
structure HeadPathsOk (inv : Inv) : Prop where
  safe : ∀ ver d ps q, (inv.head, ver) ∈ inv.versions → (d, ps) ∈ ver.state → q ∈ ps → SafePath q
  noConflict : ∀ ver x y, (inv.head, ver) ∈ inv.versions → x ∈ statePaths ver.state → y ∈ statePaths ver.state → ¬ UnderDir x y

theorem safePath_joinWith {cs : List Str} (h0 : cs ≠ []) (h : ∀ c ∈ cs, ValidComp c) : SafePath (joinWith '/' cs) := by
  intro seg hs
  rw [splitOn_joinWith_noSep h0 (fun c hc => (h c hc).2.2.2)] at hs
  exact ⟨(h seg hs).1, (h seg hs).2.1, (h seg hs).2.2.1⟩

/-- what a session that succeeds does -/
structure Deposited (w : World) (inv i : Inv) (s : Session) (o : Obj) (f : Bytes → Str) : Prop where
  dep : Dep w inv i o
  opened : newVersion inv s.info.msg s.info.userName s.info.userAddress s.info.now = .ok i
  result : (session w inv s).obj.inv = o.inv
  hash : w.hash o.inv.digestAlg = some f
  trace : (session w inv s).obj.trace = o.trace ++ verWrites w f o.inv ++ (rootWrites w f o.inv ++ extWrites s.exts)

theorem deposited {w : World} {inv : Inv} {s : Session} (hL : LowerHash w) {p N : Nat} (h : InvOk p N inv)
    (hs : SafeNames w s) (hr : s.rounds = []) (he : (session w inv s).err = none)
    (hm : (session w inv s).obj.inv.modified = true) : ∃ i o f, Deposited w inv i s o f := by
  obtain ⟨i, o, f, h1, h2, h3, h4, h5⟩ := session_okSteps hr he hm
  refine ⟨i, o, f, ?_, h1, h3, h4, h5⟩
  have hfr := newVersion_frame h1
  have hman : i.manifest = inv.manifest := hfr.2.2.2.2.2.1
  have hfix : i.fixity = inv.fixity := hfr.2.2.2.2.2.2.1
  refine OkSteps.inv (P := Dep w inv i) h2 ?_ (fun a b ha hab => ha.step hL (fun p a hu j hj => hs (p, a) hu j hj) hab)
  have hl := listed_congr hman
  refine ⟨⟨[], rfl, rfl, by simp⟩, ⟨[], rfl, by simp, ?_⟩, ?_, ?_, ?_, ?_, ?_, ?_⟩
  · intro a mm d m c k1 k2 k3
    exact Or.inl ⟨mm, m, by rw [← hfix]; exact k1, k2, k3⟩
  · exact fun c hc => (hl c).2 hc
  · exact fun c hc => Or.inl ((hl c).1 hc)
  · intro a ha
    exact Or.inl (by rw [← hfix]; exact ha)
  · show ∀ a mm d m, (a, mm) ∈ i.fixity → _
    rw [hfix]; exact h.fixity
  · show ∀ a mm d, (a, mm) ∈ i.fixity → _
    rw [hfix]; exact h.lower
  · show (mkeys i.manifest).Nodup
    rw [hman]; exact h.keys.manifest

section
variable {w : World} {inv i : Inv} {s : Session} {o : Obj} {f : Bytes → Str} {p N : Nat}

theorem Deposited.run (D : Deposited w inv i s o f) : ∃ ops, Gocfl.run inv ops = .ok o.inv ∧ countNew ops = 1 ∧
    ∀ ns mp cs, Op.add ns mp cs ∈ ops → mp ≠ [] := by
  obtain ⟨ops, h1, h2, h3⟩ := D.dep.run
  refine ⟨.newVersion s.info.msg s.info.userName s.info.userAddress s.info.now :: ops, ?_, ?_, ?_⟩
  · show (step inv _ >>= fun i => Gocfl.run i ops) = _
    rw [show step inv (.newVersion s.info.msg s.info.userName s.info.userAddress s.info.now) = .ok i from D.opened]
    exact h1
  · rw [countNew_cons, h2]; rfl
  · intro ns mp cs hx
    rcases List.mem_cons.1 hx with hx | hx
    · cases hx
    · exact h3 ns mp cs hx

theorem Deposited.wf (D : Deposited w inv i s o f) (h : InvOk p N inv) : WF o.inv (N + 1) := by
  obtain ⟨ops, h1, h2, _⟩ := D.run
  have := run_wf h.wf h1
  rwa [h2] at this

theorem Deposited.scalars (D : Deposited w inv i s o f) (h : InvOk p N inv) :
    o.inv.paddingLength = (p : Int) ∧ o.inv.digestAlg = inv.digestAlg ∧ o.inv.contentDirectory = inv.contentDirectory ∧
    o.inv.id = inv.id ∧ o.inv.spec = inv.spec ∧ o.inv.contentDir = inv.contentDir ∧
    o.inv.head = verName (p : Int) ((N + 1 : Nat) : Int) ∧ i.head = o.inv.head := by
  have hh := D.dep.headOnly
  obtain ⟨f1, f2, f3, _, _, _, _, _, f4, f5⟩ := newVersion_frame D.opened
  have hp := hh.pad.trans (f2.trans h.pad)
  refine ⟨hp, hh.alg.trans f3, hh.cdir.trans f1, hh.id.trans f4, hh.spec.trans f5, ?_, ?_, hh.head.symm⟩
  · unfold Inv.contentDir; rw [hh.cdir.trans f1]
  · rw [(D.wf h).1.head_eq (by omega), hp]

/-- the content path of a name lies in the content directory of the new version -/
theorem Deposited.path (D : Deposited w inv i s o f) (h : InvOk p N inv) {q : Str} (hq : InsideName q) :
    ∃ cs, cs ≠ [] ∧ (∀ c ∈ cs, ValidComp c) ∧
      buildManifestName i q = joinWith '/' (o.inv.head :: o.inv.contentDir :: cs) ∧
      buildManifestName i q = o.inv.head ++ '/' :: o.inv.contentDir ++ '/' :: joinWith '/' cs := by
  obtain ⟨k, hk⟩ := hq
  obtain ⟨_, _, _, _, _, s6, s7, s8⟩ := D.scalars h
  have hcd : i.contentDir = o.inv.contentDir := by
    have := D.dep.headOnly.cdir
    unfold Inv.contentDir; rw [this]
  obtain ⟨cs, c1, c2, c3⟩ := C13_content_path_inside_partial (inv := i) (by rw [s8, s7]; exact verName_valid _ _)
    (by rw [hcd, s6]; exact h.cdir) hk
  rw [s8, hcd] at c3
  refine ⟨cs, c1, c2, c3, ?_⟩
  rw [c3, joinWith_cons (by simp), joinWith_cons c1]
  simp

/-- old versions are kept -/
theorem Deposited.old (D : Deposited w inv i s o f) (h : InvOk p N inv) {v : Str} (hv : v ∈ mkeys inv.versions) :
    v ≠ o.inv.head ∧ mget o.inv.versions v = mget inv.versions v := by
  obtain ⟨h1, h2, h3⟩ := newVersion_keeps h.wf.1 h.wf.2 D.opened hv
  have hh := D.dep.headOnly
  exact ⟨by rw [hh.head]; exact h2, by rw [hh.other v h2, h3]⟩

theorem Deposited.version (D : Deposited w inv i s o f) (h : InvOk p N inv) {v : Str} {ver : Version}
    (hv : (v, ver) ∈ o.inv.versions) : v = o.inv.head ∨ (v ≠ o.inv.head ∧ (v, ver) ∈ inv.versions) := by
  by_cases hh : v = o.inv.head
  · exact Or.inl hh
  · right
    have hk : v ∈ mkeys o.inv.versions := mem_mkeys_of_mem hv
    obtain ⟨s1, _, _, _, _, _, s7, _⟩ := D.scalars h
    obtain ⟨k, k1, k2, k3⟩ := (D.wf h).1.mem_keys.1 hk
    rw [s1] at k3
    have hk2 : k ≤ N := by
      by_contra hc
      have : k = N + 1 := by omega
      subst this
      exact hh (k3.trans s7.symm)
    have hin : v ∈ mkeys inv.versions := (h.mem_keys v).2 ⟨k, k1, hk2, k3⟩
    refine ⟨hh, mem_of_mget ?_⟩
    rw [← (D.old h hin).2]
    exact mget_of_mem (D.wf h).1.nodup hv

theorem Deposited.versionOld (D : Deposited w inv i s o f) (h : InvOk p N inv) {v : Str} {ver : Version}
    (hv : (v, ver) ∈ inv.versions) : (v, ver) ∈ o.inv.versions :=
  mem_of_mget (by rw [(D.old h (mem_mkeys_of_mem hv)).2]; exact mget_of_mem h.wf.1.nodup hv)

theorem Deposited.head (D : Deposited w inv i s o f) (h : InvOk p N inv) : ∃ ver, (o.inv.head, ver) ∈ o.inv.versions :=
  mem_mkeys_iff.1 ((D.wf h).1.head_mem (by omega))

/-- the inventory after a session -/
theorem Deposited.ok (D : Deposited w inv i s o f) (h : InvOk p N inv) (hh : HeadPathsOk o.inv) : InvOk p (N + 1) o.inv := by
  obtain ⟨ops, r1, r2, r3⟩ := D.run
  obtain ⟨s1, s2, s3, s4, s5, s6, s7, s8⟩ := D.scalars h
  have hcov := (C10_no_dangling_digests h.wf.1 h.wf.2 h.covered r3 r1).1
  have hman : ∀ d m c, (d, m) ∈ o.inv.manifest → c ∈ m → SafePath c ∧
      ∃ v ver q, (v, ver) ∈ o.inv.versions ∧ c = v ++ '/' :: o.inv.contentDir ++ '/' :: q := by
    intro d m c hd hc
    rcases D.dep.new c ⟨d, m, hd, hc⟩ with ⟨d0, m0, h1, h2⟩ | ⟨q, hq, rfl⟩
    · refine ⟨h.paths.2.1 d0 m0 c h1 h2, ?_⟩
      obtain ⟨v, ver, q, hv, rfl⟩ := h.content d0 m0 c h1 h2
      exact ⟨v, ver, q, D.versionOld h hv, by rw [s6]⟩
    · obtain ⟨cs, c1, c2, c3, c4⟩ := D.path h hq
      obtain ⟨ver, hv⟩ := D.head h
      refine ⟨?_, _, ver, _, hv, c4⟩
      rw [c3]
      refine safePath_joinWith (by simp) ?_
      intro c hc
      rcases List.mem_cons.1 hc with rfl | hc
      · rw [s7]; exact verName_valid _ _
      · rcases List.mem_cons.1 hc with rfl | hc
        · rw [s6]; exact h.cdir
        · exact c2 c hc
  refine ⟨D.wf h, s1, h.keys.run r1, by rw [s4]; exact h.id, by rw [s5]; exact h.spec, by rw [s3]; exact h.contentDirectory,
    by rw [s2]; exact h.alg, C11_manifest_referenced h.wf.1 h.wf.2 h.used r1, hcov, D.dep.nonempty, D.dep.lower,
    ⟨?_, fun d m c hd hc => (hman d m c hd hc).1, ?_⟩, ?_, fun d m c hd hc => (hman d m c hd hc).2⟩
  · intro v ver d ps q hv hd hq
    rcases D.version h hv with rfl | ⟨_, hv⟩
    · exact hh.safe ver d ps q hv hd hq
    · exact h.paths.1 v ver d ps q hv hd hq
  · intro a mm d m c ha hd hc
    obtain ⟨bl, _, _, b3⟩ := D.dep.blocks
    rcases b3 a mm d m c ha hd hc with ⟨mm0, m0, h1, h2, h3⟩ | ⟨_, _, _, _, _, ⟨d', m', h1, h2⟩⟩
    · exact h.paths.2.2 a mm0 d m0 c h1 h2 h3
    · exact (hman d' m' c h1 h2).1
  · rintro ⟨v, ver, x, y, hv, hx, hy, hu⟩
    rcases D.version h hv with rfl | ⟨_, hv⟩
    · exact hh.noConflict ver x y hv hx hy hu
    · exact h.noConflict ⟨v, ver, x, y, hv, hx, hy, hu⟩

/-! ## The files -/

theorem verInv_eq (v : Str) : verInvPath v = v ++ '/' :: rootInvPath := rfl
theorem verSidecar_eq (v alg : Str) : verSidecarPath v alg = v ++ '/' :: rootSidecarPath alg := rfl
theorem ext_eq (n : Str) : extPath n = "extensions".toList ++ '/' :: n := rfl

/-- files written in a session -/
inductive Written (o : Obj) : Str → Prop
  | ext (n : Str) : Written o (extPath n)
  | content (q : Str) : Listed o.inv (o.inv.head ++ '/' :: o.inv.contentDir ++ '/' :: q) →
      Written o (o.inv.head ++ '/' :: o.inv.contentDir ++ '/' :: q)
  | verInv : Written o (o.inv.head ++ '/' :: rootInvPath)
  | verSidecar : Written o (o.inv.head ++ '/' :: rootSidecarPath o.inv.digestAlg)
  | root : Written o rootInvPath
  | sidecar : Written o (rootSidecarPath o.inv.digestAlg)

theorem Deposited.written (D : Deposited w inv i s o f) (h : InvOk p N inv) {op : FsOp}
    (hop : op ∈ (session w inv s).obj.trace) : Written o op.path := by
  rw [D.trace] at hop
  rcases List.mem_append.1 hop with hop | hop
  · rcases List.mem_append.1 hop with hop | hop
    · obtain ⟨bl, b1, b2, _⟩ := D.dep.blocks
      rw [b1] at hop
      obtain ⟨e, he, hp⟩ := List.mem_map.1 (mem_render_path hop)
      rw [← hp]
      rcases b2 e he with ⟨x, hx⟩ | ⟨⟨q, hq, hx⟩, hl⟩
      · rw [hx]; exact .ext x
      · obtain ⟨cs, _, _, _, c4⟩ := D.path h hq
        rw [hx, c4] at hl ⊢
        exact .content _ hl
    · unfold verWrites at hop
      rcases List.mem_append.1 hop with hop | hop
      · rw [mem_writeFile_path hop]; exact .verInv
      · rw [mem_writeFile_path hop]; exact .verSidecar
  · rcases List.mem_append.1 hop with hop | hop
    · rcases mem_rootWrites_path hop with h | h
      · rw [h]; exact .root
      · rw [h]; exact .sidecar
    · obtain ⟨n, hn⟩ := mem_extWrites_path hop
      rw [hn]; exact .ext n

theorem Deposited.changed (D : Deposited w inv i s o f) (h : InvOk p N inv) (fs : FS) (x : Str) :
    Written o x ∨ mget (applyOps fs (session w inv s).obj.trace) x = mget fs x := by
  by_cases hx : ∃ op ∈ (session w inv s).obj.trace, op.path = x
  · obtain ⟨op, hop, rfl⟩ := hx
    exact Or.inl (D.written h hop)
  · right
    refine mget_applyOps_ne (fun op hop hc => hx ⟨op, hop, hc⟩)

theorem applyOps_keeps {fs : FS} {t : List FsOp} {x : Str} (h : mget fs x ≠ none) : mget (applyOps fs t) x ≠ none := by
  induction t generalizing fs with
  | nil => exact h
  | cons op t ih =>
    rw [applyOps_cons]
    refine ih ?_
    cases op with
    | create q =>
      show mget (mset fs q _) x ≠ none
      rw [mget_mset]; split
      · simp
      · exact h
    | append q b =>
      show mget (mset fs q _) x ≠ none
      rw [mget_mset]; split
      · simp
      · exact h

theorem applyOps_keysNodup {fs : FS} {t : List FsOp} (h : (mkeys fs).Nodup) : (mkeys (applyOps fs t)).Nodup := by
  induction t generalizing fs with
  | nil => exact h
  | cons op t ih =>
    rw [applyOps_cons]
    refine ih ?_
    cases op <;> exact mkeys_mset_nodup h _ _

theorem append_slash_inj {a b x y : Str} (ha : '/' ∉ a) (hb : '/' ∉ b) (h : a ++ '/' :: x = b ++ '/' :: y) : a = b ∧ x = y := by
  have h1 : a = b := by
    rw [← topOf_append ha x, h, topOf_append hb y]
  subst h1
  exact ⟨rfl, (List.cons.inj (List.append_cancel_left h)).2⟩

/-- which of the files written lie in the folder `v` of a version -/
theorem Written.inVersion {x v y : Str} (hx : Written o x) (he : x = v ++ '/' :: y) (hv : '/' ∉ v) (hv' : v.head? = some 'v')
    (ho : '/' ∉ o.inv.head) (ha : '/' ∉ o.inv.digestAlg) : v = o.inv.head ∧
      (y = rootInvPath ∨ y = rootSidecarPath o.inv.digestAlg ∨
        ∃ q, y = o.inv.contentDir ++ '/' :: q ∧ Listed o.inv (v ++ '/' :: y)) := by
  cases hx with
  | ext n =>
    rw [ext_eq] at he
    obtain ⟨rfl, _⟩ := append_slash_inj (by decide) hv he
    exact absurd hv' (by decide)
  | content q hl =>
    rw [List.append_assoc, List.cons_append] at he hl
    obtain ⟨rfl, rfl⟩ := append_slash_inj ho hv he
    exact ⟨rfl, Or.inr (Or.inr ⟨q, rfl, hl⟩)⟩
  | verInv =>
    obtain ⟨rfl, rfl⟩ := append_slash_inj ho hv he
    exact ⟨rfl, Or.inl rfl⟩
  | verSidecar =>
    obtain ⟨rfl, rfl⟩ := append_slash_inj ho hv he
    exact ⟨rfl, Or.inr (Or.inl rfl)⟩
  | root =>
    have : '/' ∈ rootInvPath := by rw [he]; simp
    exact absurd this (by decide)
  | sidecar =>
    have : '/' ∈ rootSidecarPath o.inv.digestAlg := by rw [he]; simp
    unfold rootSidecarPath at this
    rcases List.mem_append.1 this with h | h
    · exact absurd h (by decide)
    · exact absurd h ha

theorem sidecar_noSlash {alg : Str} (ha : '/' ∉ alg) : '/' ∉ rootSidecarPath alg := by
  unfold rootSidecarPath
  intro h
  rcases List.mem_append.1 h with h | h
  · revert h; decide
  · exact ha h

/-- The content described by the new inventory is on disk. -/
theorem Deposited.disk (D : Deposited w inv i s o f) (h : InvOk p N inv) {fs : FS} (hL : LowerHash w) (hm : DiskMatches w fs inv)
    (hd : ∀ x b, mget fs (verName (p : Int) ((N + 1 : Nat) : Int) ++ '/' :: x) ≠ some b)
    (hs : SafeNames w s) (hr : s.rounds = [])
    (hnd : (targets w { inv with head := verName inv.paddingLength ((N + 1 : Nat) : Int) }
      (s.before ++ s.body ++ s.after)).Nodup) :
    DiskMatches w (applyOps fs (session w inv s).obj.trace) o.inv := by
  obtain ⟨s1, s2, s3, s4, s5, s6, s7, s8⟩ := D.scalars h
  have hhash : w.hash inv.digestAlg = some f := by rw [← s2]; exact D.hash
  have hvf : ∀ d m c, (d, m) ∈ inv.manifest → c ∈ m → VersionFile inv N c := fun d m c hd hc => h.listed ⟨d, m, hd, hc⟩
  have hok : ContentOk f inv fs := by
    intro d m c h1 h2
    obtain ⟨b, hash, k1, k2, k3⟩ := hm.content d m c h1 h2
    rw [hhash] at k2; cases k2
    exact ⟨b, k1, by rw [k3, toLower_idem]⟩
  have hco := C25_distinct_names_partial h.wf h.cdir hhash h.algSlash hok hvf hs hr hnd
  obtain ⟨hon1, hon2⟩ := session_once h.wf h.cdir h.algSlash hvf hs hr hnd
  rw [D.result] at hco hon2
  refine ⟨?_, ?_, ?_, ?_⟩
  · intro d m c h1 h2
    obtain ⟨b, k1, k2⟩ := hco d m c h1 h2
    exact ⟨b, f, k1, D.hash, by rw [← k2, hL _ _ _ D.hash]⟩
  · intro v ver q b hv hb
    rw [List.append_assoc, List.cons_append] at hb ⊢
    have hvn : '/' ∉ v ∧ v.head? = some 'v' := by
      obtain ⟨k, _, _, rfl⟩ := (D.wf h).1.mem_keys.1 (mem_mkeys_of_mem hv)
      exact ⟨verName_noSlash _ _, verName_head _ _⟩
    have ho : '/' ∉ o.inv.head := by rw [s7]; exact verName_noSlash _ _
    have ha : '/' ∉ o.inv.digestAlg := by rw [s2]; exact h.algSlash
    rcases D.changed h fs (v ++ '/' :: (o.inv.contentDir ++ '/' :: q)) with hw | hu
    · obtain ⟨_, hy | hy | ⟨q', _, hl⟩⟩ := hw.inVersion rfl hvn.1 hvn.2 ho ha
      · have : '/' ∈ rootInvPath := by rw [← hy]; simp
        exact absurd this (by decide)
      · have : '/' ∈ rootSidecarPath o.inv.digestAlg := by rw [← hy]; simp
        exact absurd this (sidecar_noSlash ha)
      · exact hl
    · rw [hu] at hb
      rcases D.version h hv with rfl | ⟨_, hv⟩
      · rw [s7] at hb
        exact absurd hb (hd _ _)
      · have := hm.complete v ver q b hv (by rw [← s6, List.append_assoc, List.cons_append]; exact hb)
        rw [← s6, List.append_assoc, List.cons_append] at this
        exact D.dep.mono _ this
  · intro a mm d m c ha hd' hc
    obtain ⟨bl, b1, _, b3⟩ := D.dep.blocks
    rcases b3 a mm d m c ha hd' hc with ⟨mm0, m0, h1, h2, h3⟩ | ⟨b, g, h1, h2, h3, h4⟩
    · obtain ⟨k1, b, hash, k2, k3, k4⟩ := hm.fixity a mm0 d m0 c h1 h2 h3
      refine ⟨D.dep.mono c k1, b, hash, ?_, k3, k4⟩
      rw [mget_applyOps_ne]
      · exact k2
      · intro op hop hc
        exact session_not_old h.wf h.cdir hs hop (by rw [hc]; exact h.listed k1)
    · refine ⟨h4, b, g, ?_, h2, ?_⟩
      · obtain ⟨d', m', h5, h6⟩ := h4
        have hcount := hon2 d' m' c h5 h6
        rw [D.trace, b1] at hcount ⊢
        rw [List.append_assoc, applyOps_append, mget_applyOps_ne]
        · refine mget_render_once h1 ?_ fs
          rw [creates_append, creates_append, List.count_append, List.count_append, creates_render] at hcount
          omega
        · intro op hop hpc
          obtain ⟨v, ver, q, hv, he⟩ := (h6 |> fun h6 => show ∃ v ver q, (v, ver) ∈ o.inv.versions ∧
              c = v ++ '/' :: o.inv.contentDir ++ '/' :: q from by
            rcases D.dep.new c ⟨d', m', h5, h6⟩ with ⟨d0, m0, g1, g2⟩ | ⟨q, hq, rfl⟩
            · obtain ⟨v, ver, q, hv, rfl⟩ := h.content d0 m0 c g1 g2
              exact ⟨v, ver, q, D.versionOld h hv, by rw [s6]⟩
            · obtain ⟨cs, c1, c2, c3, c4⟩ := D.path h hq
              obtain ⟨ver, hv⟩ := D.head h
              exact ⟨_, ver, _, hv, c4⟩)
          have hvn : '/' ∉ v ∧ v.head? = some 'v' := by
            obtain ⟨k, _, _, rfl⟩ := (D.wf h).1.mem_keys.1 (mem_mkeys_of_mem hv)
            exact ⟨verName_noSlash _ _, verName_head _ _⟩
          have ho : '/' ∉ o.inv.head := by rw [s7]; exact verName_noSlash _ _
          have ha : '/' ∉ o.inv.digestAlg := by rw [s2]; exact h.algSlash
          have hsl : ∀ y, '/' ∉ y → op.path ≠ o.inv.head ++ '/' :: y := by
            intro y hy hc
            rw [hpc, he, List.append_assoc, List.cons_append] at hc
            obtain ⟨_, rfl⟩ := append_slash_inj hvn.1 ho hc
            exact hy (by simp)
          rcases List.mem_append.1 hop with hop | hop
          · unfold verWrites at hop
            rcases List.mem_append.1 hop with hop | hop
            · exact hsl rootInvPath (by decide) (mem_writeFile_path hop)
            · exact hsl _ (sidecar_noSlash ha) (mem_writeFile_path hop)
          · rcases List.mem_append.1 hop with hop | hop
            · rcases mem_rootWrites_path hop with h | h
              · have : '/' ∈ rootInvPath := by rw [← h, hpc, he]; simp
                revert this; decide
              · have : '/' ∈ rootSidecarPath o.inv.digestAlg := by rw [← h, hpc, he]; simp
                exact absurd this (sidecar_noSlash ha)
            · obtain ⟨n, hn⟩ := mem_extWrites_path hop
              rw [hpc, he, List.append_assoc, List.cons_append, ext_eq] at hn
              obtain ⟨rfl, _⟩ := append_slash_inj hvn.1 (by decide) hn
              exact absurd hvn.2 (by decide)
      · rw [h3, D.dep.lower a mm d ha (mem_mkeys_of_mem hd')]
  · intro a ha
    rcases D.dep.algs a ha with h | h
    · exact hm.algs a h
    · exact h

end

/-! ## Reading back -/

/-- `r` is what is read when `a` was written -/
structure ReadBack (w : World) (a : Inv) (r : RawInv) : Prop where
  scalars : a.id = r.inv.id ∧ a.spec = r.inv.spec ∧ a.digestAlg = r.inv.digestAlg ∧ a.head = r.inv.head ∧
    a.contentDirectory = r.inv.contentDirectory
  decoded : Decoded r
  keys : (mkeys a.versions).Perm (mkeys r.inv.versions)
  manifest : a.manifest.Perm r.inv.manifest
  fixityKeys : (mkeys a.fixity).Perm (mkeys r.inv.fixity)
  version : ∀ v ver, (v, ver) ∈ a.versions → ∃ ver', (v, ver') ∈ r.inv.versions ∧
    SameVersion { ver with created := w.time ver.created } ver'
  version' : ∀ v ver', (v, ver') ∈ r.inv.versions → ∃ ver, (v, ver) ∈ a.versions ∧
    SameVersion { ver with created := w.time ver.created } ver'
  fixity : ∀ x m, (x, m) ∈ a.fixity → ∃ m', (x, m') ∈ r.inv.fixity ∧ m.Perm m'
  fixity' : ∀ x m', (x, m') ∈ r.inv.fixity → ∃ m, (x, m) ∈ a.fixity ∧ m.Perm m'

theorem readBack_of {w : World} {a : Inv} {r : RawInv} (h : Reordered (rawOf (stampInv w.time a)) r) : ReadBack w a r where
  scalars := ⟨h.id, h.spec, h.digestAlg, h.head, h.contentDirectory⟩
  decoded := by
    have hvm : ∀ v, r.vm v = {} := fun v => (h.vm v).symm
    refine ⟨⟨h.headNil.symm, h.headErr.symm⟩, ⟨h.manifestNil.symm, h.versionsNil.symm⟩, fun v _ _ => ?_⟩
    rw [hvm]
    exact ⟨rfl, rfl, rfl, rfl, rfl, rfl, rfl, rfl, rfl⟩
  keys := by
    have := h.versionKeys
    rwa [show (rawOf (stampInv w.time a)).inv.versions = (stampInv w.time a).versions from rfl, stampInv_keys] at this
  manifest := h.manifest
  fixityKeys := h.fixityKeys
  version v ver hv := h.versions v _ (by
    show _ ∈ (stampInv w.time a).versions
    simp only [stampInv, List.mem_map]
    exact ⟨(v, ver), hv, rfl⟩)
  version' v ver' hv := by
    obtain ⟨x, hx, hs⟩ := h.versions' v ver' hv
    have hx : (v, x) ∈ (stampInv w.time a).versions := hx
    simp only [stampInv, List.mem_map, Prod.mk.injEq] at hx
    obtain ⟨e, he, rfl, rfl⟩ := hx
    exact ⟨e.2, he, hs⟩
  fixity := h.fixity
  fixity' := h.fixity'

theorem ReadBack.contentDir {w : World} {a : Inv} {r : RawInv} (h : ReadBack w a r) (p : Nat) :
    (loadedInv p r).contentDir = a.contentDir := by
  unfold Inv.contentDir
  rw [show (loadedInv p r).contentDirectory = a.contentDirectory from h.scalars.2.2.2.2.symm]

theorem ReadBack.ok {w : World} {a : Inv} {r : RawInv} (h : ReadBack w a r) {p N : Nat} (ho : InvOk p N a) :
    InvOk p N (loadedInv p r) := by
  obtain ⟨e1, e2, e3, e4, e5⟩ := h.scalars
  have hcd := h.contentDir p
  have hm : ∀ e, e ∈ (loadedInv p r).manifest ↔ e ∈ a.manifest := fun e => h.manifest.symm.mem_iff
  refine ⟨⟨⟨?_, ?_⟩, ?_⟩, rfl, ⟨?_, ?_, ?_⟩, ?_, ?_, ?_, ?_, ?_, ⟨?_, ?_⟩, ?_, ?_, ⟨?_, ?_, ?_⟩, ?_, ?_⟩
  · have := ho.wf.1.1
    rw [ho.pad] at this
    exact h.keys.symm.trans this
  · have := ho.wf.1.2
    rw [ho.pad] at this
    exact e4.symm.trans this
  · intro v ver hv
    obtain ⟨x, hx, _, _, _, _, hp⟩ := h.version' v ver hv
    exact (hp.map Prod.fst).nodup_iff.1 (ho.wf.2 v x hx)
  · exact (h.manifest.map Prod.fst).nodup_iff.1 ho.keys.manifest
  · exact h.fixityKeys.nodup_iff.1 ho.keys.fixity
  · intro x m hx
    obtain ⟨m', h1, h2⟩ := h.fixity' x m hx
    exact (h2.map Prod.fst).nodup_iff.1 (ho.keys.blocks x m' h1)
  · intro hc; exact ho.id (e1.trans hc)
  · intro hc; exact ho.spec (e2.trans hc)
  · show r.inv.contentDirectory ≠ _ ∧ _
    rw [show (loadedInv p r).contentDirectory = a.contentDirectory from e5.symm, ← e5]
    exact ho.contentDirectory
  · show r.inv.digestAlg = _ ∨ r.inv.digestAlg = _
    rw [← e3]; exact ho.alg
  · intro d ms hd
    obtain ⟨v, ver, ps, hv, hs⟩ := ho.used d ms ((hm _).1 hd)
    obtain ⟨x, hx, _, _, _, _, hp⟩ := h.version v ver hv
    exact ⟨v, x, ps, hx, hp.mem_iff.1 hs⟩
  · intro v ver d hv hd
    obtain ⟨x, hx, _, _, _, _, hp⟩ := h.version' v ver hv
    obtain ⟨m, hmm⟩ := ho.covered.1 v x d hx ((hp.map Prod.fst).mem_iff.2 hd)
    exact ⟨m, (hm _).2 hmm⟩
  · exact fun d m hd => ho.covered.2 d m ((hm _).1 hd)
  · intro x mm d m hx hd
    obtain ⟨m', h1, h2⟩ := h.fixity' x mm hx
    exact ho.fixity x m' d m h1 (h2.mem_iff.2 hd)
  · intro x mm d hx hd
    obtain ⟨m', h1, h2⟩ := h.fixity' x mm hx
    exact ho.lower x m' d h1 ((h2.map Prod.fst).mem_iff.2 hd)
  · intro v ver d ps q hv hd hq
    obtain ⟨x, hx, _, _, _, _, hp⟩ := h.version' v ver hv
    exact ho.paths.1 v x d ps q hx (hp.mem_iff.2 hd) hq
  · exact fun d ps q hd hq => ho.paths.2.1 d ps q ((hm _).1 hd) hq
  · intro x mm d ps q hx hd hq
    obtain ⟨m', h1, h2⟩ := h.fixity' x mm hx
    exact ho.paths.2.2 x m' d ps q h1 (h2.mem_iff.2 hd) hq
  · rintro ⟨v, ver, y, z, hv, hy, hz, hu⟩
    obtain ⟨x, hx, _, _, _, _, hp⟩ := h.version' v ver hv
    have hpm : ∀ y, y ∈ statePaths ver.state → y ∈ statePaths x.state := by
      intro y hy
      unfold statePaths at hy ⊢
      exact (hp.flatMap_right _).mem_iff.2 hy
    exact ho.noConflict ⟨v, x, y, z, hx, hpm y hy, hpm z hz, hu⟩
  · intro d m c hd hc
    obtain ⟨v, ver, q, hv, he⟩ := ho.content d m c ((hm _).1 hd) hc
    obtain ⟨x, hx, _⟩ := h.version v ver hv
    exact ⟨v, x, q, hx, by rw [hcd]; exact he⟩

theorem ReadBack.disk {w : World} {a : Inv} {r : RawInv} (h : ReadBack w a r) {fs : FS} (p : Nat) (ho : DiskMatches w fs a) :
    DiskMatches w fs (loadedInv p r) := by
  obtain ⟨e1, e2, e3, e4, e5⟩ := h.scalars
  have hcd := h.contentDir p
  have hm : ∀ e, e ∈ (loadedInv p r).manifest ↔ e ∈ a.manifest := fun e => h.manifest.symm.mem_iff
  refine ⟨?_, ?_, ?_, ?_⟩
  · intro d m c hd hc
    obtain ⟨b, hash, k1, k2, k3⟩ := ho.content d m c ((hm _).1 hd) hc
    exact ⟨b, hash, k1, by rw [← k2, e3]; rfl, k3⟩
  · intro v ver q b hv hb
    rw [hcd] at hb ⊢
    obtain ⟨x, hx, _⟩ := h.version' v ver hv
    obtain ⟨d, m, k1, k2⟩ := ho.complete v x q b hx hb
    exact ⟨d, m, (hm _).2 k1, k2⟩
  · intro x mm d m c hx hd hc
    obtain ⟨m', h1, h2⟩ := h.fixity' x mm hx
    obtain ⟨⟨d', n', k1, k2⟩, k3⟩ := ho.fixity x m' d m c h1 (h2.mem_iff.2 hd) hc
    exact ⟨⟨d', n', (hm _).2 k1, k2⟩, k3⟩
  · intro x hx
    exact ho.algs x (h.fixityKeys.mem_iff.2 hx)

/-! ## Objects -/

/-- The folder `fs` holds an object with the inventory `inv` (as it is in memory after creating or loading the object):
`N` versions, consistent with all files in the folder. -/
structure Intact (w : World) (fs : FS) (p N : Nat) (inv : Inv) : Prop where
  ok : InvOk p N inv
  files : DiskMatches w fs inv
  nodup : (mkeys fs).Nodup
  decl : ∃ num, IsVersionNum num ∧ mget fs (declName num) = some (asBytes (objDecl ++ num ++ "\n".toList)) ∧
    ∀ n b, mget fs n = some b → '/' ∉ n → n = declName num ∨ n = rootInvPath ∨ n = rootSidecarPath inv.digestAlg
  dirs : ∀ d q b, mget fs (d ++ '/' :: q) = some b → '/' ∉ d →
    d ∈ mkeys inv.versions ∨ d = "logs".toList ∨ d = "extensions".toList
  folders : ∀ v ver, (v, ver) ∈ inv.versions → ∃ x b, mget fs (v ++ '/' :: x) = some b
  versionFiles : ∀ v ver x b, (v, ver) ∈ inv.versions → mget fs (v ++ '/' :: x) = some b →
    x = rootInvPath ∨ x = rootSidecarPath inv.digestAlg ∨ ∃ q, x = inv.contentDir ++ '/' :: q
  inventories : ∀ n b, 0 < n → n ≤ N → mget fs (verInvPath (verName (p : Int) (n : Int))) = some b →
    ∃ i, StoredInv w (subFS fs (verName (p : Int) (n : Int))) i ∧ Decoded i ∧ ValidInv p n i.inv ∧
      SameHistory i.inv inv ∧ DiskMatches w fs i.inv
  specs : ∀ n m bn bm i j, 0 < n → n ≤ m → m ≤ N → mget fs (verInvPath (verName (p : Int) (n : Int))) = some bn →
    mget fs (verInvPath (verName (p : Int) (m : Int))) = some bm → w.dec bn = some i → w.dec bm = some j →
    strLe i.inv.spec j.inv.spec = true
  specLe : ∀ n b i, 0 < n → n ≤ N → mget fs (verInvPath (verName (p : Int) (n : Int))) = some b → w.dec b = some i →
    strLe i.inv.spec inv.spec = true
  /-- time stamps have whole seconds -/
  times : ∀ v ver, (v, ver) ∈ inv.versions → w.time ver.created = ver.created

theorem declName_slash {num : Str} (h : IsVersionNum num) : '/' ∉ declName num := by
  obtain ⟨a, b, _, _, ha, hb, rfl⟩ := h
  unfold declName
  simp only [List.mem_append, List.mem_cons, not_or]
  refine ⟨by decide, by decide, fun h => ?_, by decide, fun h => ?_⟩
  · exact absurd (ha _ h) (by decide)
  · exact absurd (hb _ h) (by decide)

theorem sameHistory_refl {i : Inv} (hn : (mkeys i.versions).Nodup) {j : Inv} (hv : j.versions = i.versions) (h1 : i.id = j.id)
    (h2 : i.contentDirectory = j.contentDirectory) (h3 : i.digestAlg = j.digestAlg) : SameHistory i j := by
  have heq : ∀ u a b, (u, a) ∈ i.versions → (u, b) ∈ j.versions → a = b := by
    intro u a b ha hb
    rw [hv] at hb
    exact Option.some.inj ((mget_of_mem hn ha).symm.trans (mget_of_mem hn hb))
  refine ⟨h1, h2, h3, ?_, ?_, ?_⟩
  · intro u a b ha hb; rw [heq u a b ha hb]; exact ⟨rfl, rfl, rfl, rfl⟩
  · intro u a b ha hb; rw [heq u a b ha hb]; exact fun _ _ => Iff.rfl
  · intro u a b ha hb; rw [heq u a b ha hb]; exact fun _ => Iff.rfl

theorem sameMapping_perm {a b : DMap} (h : a.Perm b) : SameMapping a b := fun _ _ =>
  ⟨fun ⟨ps, h1, h2⟩ => ⟨ps, h.mem_iff.1 h1, h2⟩, fun ⟨ps, h1, h2⟩ => ⟨ps, h.mem_iff.2 h1, h2⟩⟩

theorem SameMapping.trans' {a b c : DMap} (h : SameMapping a b) (h' : SameMapping b c) : SameMapping a c := fun p d =>
  (h p d).trans (h' p d)

/-- What is assumed of a session: it completes, changed something, has no follow-up versions; the names it uses have
content paths of their own inside the content directory; the logical paths it leaves are safe and do not conflict; the
version number fits the padding. -/
structure CleanSession (w : World) (p N : Nat) (inv : Inv) (s : Session) : Prop where
  names : SafeNames w s
  rounds : s.rounds = []
  distinct : (targets w { inv with head := verName inv.paddingLength ((N + 1 : Nat) : Int) }
    (s.before ++ s.body ++ s.after)).Nodup
  completes : (session w inv s).err = none
  modified : (session w inv s).obj.inv.modified = true
  paths : HeadPathsOk (session w inv s).obj.inv
  width : 0 < p → (fmtNat (N + 1)).length ≤ p

/-- The same for the inventory in memory when it has been written: the time stamps of the new version are not yet cut
to whole seconds. -/
structure Staged (w : World) (fs : FS) (p N : Nat) (inv : Inv) : Prop where
  ok : InvOk p N inv
  files : DiskMatches w fs inv
  nodup : (mkeys fs).Nodup
  decl : ∃ num, IsVersionNum num ∧ mget fs (declName num) = some (asBytes (objDecl ++ num ++ "\n".toList)) ∧
    ∀ n b, mget fs n = some b → '/' ∉ n → n = declName num ∨ n = rootInvPath ∨ n = rootSidecarPath inv.digestAlg
  dirs : ∀ d q b, mget fs (d ++ '/' :: q) = some b → '/' ∉ d →
    d ∈ mkeys inv.versions ∨ d = "logs".toList ∨ d = "extensions".toList
  folders : ∀ v ver, (v, ver) ∈ inv.versions → ∃ x b, mget fs (v ++ '/' :: x) = some b
  versionFiles : ∀ v ver x b, (v, ver) ∈ inv.versions → mget fs (v ++ '/' :: x) = some b →
    x = rootInvPath ∨ x = rootSidecarPath inv.digestAlg ∨ ∃ q, x = inv.contentDir ++ '/' :: q
  inventories : ∀ n b, 0 < n → n ≤ N → mget fs (verInvPath (verName (p : Int) (n : Int))) = some b →
    ∃ i, StoredInv w (subFS fs (verName (p : Int) (n : Int))) i ∧ Decoded i ∧ ValidInv p n i.inv ∧
      SameHistory i.inv (stampInv w.time inv) ∧ DiskMatches w fs i.inv
  specs : ∀ n m bn bm i j, 0 < n → n ≤ m → m ≤ N → mget fs (verInvPath (verName (p : Int) (n : Int))) = some bn →
    mget fs (verInvPath (verName (p : Int) (m : Int))) = some bm → w.dec bn = some i → w.dec bm = some j →
    strLe i.inv.spec j.inv.spec = true
  specLe : ∀ n b i, 0 < n → n ≤ N → mget fs (verInvPath (verName (p : Int) (n : Int))) = some b → w.dec b = some i →
    strLe i.inv.spec inv.spec = true

theorem mem_stampInv {f : Str → Str} {inv : Inv} {v : Str} {ver : Version} :
    (v, ver) ∈ (stampInv f inv).versions ↔ ∃ c, (v, c) ∈ inv.versions ∧ ver = { c with created := f c.created } := by
  simp only [stampInv, List.mem_map, Prod.mk.injEq]
  constructor
  · rintro ⟨e, he, rfl, rfl⟩; exact ⟨e.2, he, rfl⟩
  · rintro ⟨c, hc, rfl⟩; exact ⟨(v, c), hc, rfl, rfl⟩

theorem Intact.staged {w : World} {fs : FS} {p N : Nat} {inv : Inv} (h : Intact w fs p N inv) : Staged w fs p N inv := by
  refine ⟨h.ok, h.files, h.nodup, h.decl, h.dirs, h.folders, h.versionFiles, ?_, h.specs, h.specLe⟩
  intro n b h0 hn hb
  obtain ⟨i, i1, i2, i3, i4, i5⟩ := h.inventories n b h0 hn hb
  refine ⟨i, i1, i2, i3, ⟨i4.id, i4.contentDirectory, i4.alg, ?_, ?_, ?_⟩, i5⟩
  · intro u a b ha hb
    obtain ⟨c, hc, rfl⟩ := mem_stampInv.1 hb
    obtain ⟨g1, g2⟩ := i4.metadata u a c ha hc
    exact ⟨g1.trans (h.times u c hc).symm, g2⟩
  · intro u a b ha hb
    obtain ⟨c, hc, rfl⟩ := mem_stampInv.1 hb
    exact i4.state u a c ha hc
  · intro u a b ha hb
    obtain ⟨c, hc, rfl⟩ := mem_stampInv.1 hb
    exact i4.digests u a c ha hc

theorem staged_session {w : World} (hc : Codec w) (hx : HexHash w) (hL : LowerHash w)
    (ht : ∀ t, w.time (w.time t) = w.time t) {fs : FS} {p N : Nat} {inv : Inv} {s : Session} (h : Staged w fs p N inv)
    (hs : CleanSession w p N inv s) :
    ∃ r, w.dec (w.enc (session w inv s).obj.inv) = some r ∧ ReadBack w (session w inv s).obj.inv r ∧
      ValidObject w (applyOps fs (session w inv s).obj.trace) p (N + 1) r ∧
      Intact w (applyOps fs (session w inv s).obj.trace) p (N + 1) (loadedInv p r) := by
  obtain ⟨i, o, f, D⟩ := deposited hL h.ok hs.names hs.rounds hs.completes hs.modified
  have hH := hs.paths
  rw [D.result] at hH ⊢
  have hok := D.ok h.ok hH
  obtain ⟨r, hdec, hre⟩ := hc.roundTrip o.inv hok.keys hok.wf.1.nodup hok.wf.2
  have R := readBack_of hre
  refine ⟨r, hdec, R, ?_⟩
  obtain ⟨s1, s2, s3, s4, s5, s6, s7, s8⟩ := D.scalars h.ok
  obtain ⟨e1, e2, e3, e4, e5⟩ := R.scalars
  have hok' := R.ok hok
  have hV : ValidInv p (N + 1) (loadedInv p r) := hok'.valid (by omega) hs.width
  have hVr : ValidInv p (N + 1) r.inv := ⟨hV.id, hV.spec, hV.contentDirectory, hV.some, hV.width, hV.versions, hV.head,
    hV.manifestKeys, hV.stateKeys, hV.fixityKeys, hV.used, hV.covered, hV.nonempty, hV.paths, hV.noConflict, hV.content⟩
  have halg : (loadedInv p r).digestAlg = inv.digestAlg := e3.symm.trans s2
  have hcd : (loadedInv p r).contentDir = inv.contentDir := (R.contentDir p).trans s6
  -- names of versions
  have hvn : ∀ k : Nat, '/' ∉ verName (p : Int) (k : Int) ∧ (verName (p : Int) (k : Int)).head? = some 'v' :=
    fun k => ⟨verName_noSlash _ _, verName_head _ _⟩
  have ho : '/' ∉ o.inv.head := by rw [s7]; exact (hvn _).1
  have hasl : '/' ∉ o.inv.digestAlg := by rw [s2]; exact h.ok.algSlash
  have hnew : ∀ x b, mget fs (verName (p : Int) ((N + 1 : Nat) : Int) ++ '/' :: x) ≠ some b := by
    intro x b hb
    rcases h.dirs _ x b hb (hvn _).1 with hk | hk | hk
    · obtain ⟨k, _, k2, k3⟩ := (h.ok.mem_keys _).1 hk
      have := verName_inj k3
      omega
    · have := (hvn (N + 1)).2; rw [hk] at this; exact absurd this (by decide)
    · have := (hvn (N + 1)).2; rw [hk] at this; exact absurd this (by decide)
  have hdisk := R.disk p (D.disk h.ok hL h.files hnew hs.names hs.rounds hs.distinct)
  have hch := D.changed h.ok fs
  have hnodup : (mkeys (applyOps fs (session w inv s).obj.trace)).Nodup := applyOps_keysNodup h.nodup
  have hstored := stored_files (w := w) (f := f) (t0 := o.trace) (exts := s.exts) (fs := fs) (inv := o.inv)
    (by rw [s7]; exact (hvn _).2)
  simp only at hstored
  rw [← D.trace] at hstored
  -- files of old versions do not change
  have hsame : ∀ (k : Nat) (x : Str), 1 ≤ k → k ≤ N → mget (applyOps fs (session w inv s).obj.trace)
      (verName (p : Int) (k : Int) ++ '/' :: x) = mget fs (verName (p : Int) (k : Int) ++ '/' :: x) := by
    intro k x h1 h2
    refine mget_applyOps_ne (fun op hop hc => ?_)
    exact session_not_old h.ok.wf h.ok.cdir hs.names hop (by rw [hc]; exact ⟨k, h1, h2, x, by rw [h.ok.pad]⟩)
  generalize applyOps fs (session w inv s).obj.trace = fs' at *
  obtain ⟨st1, st2, st3, st4⟩ := hstored
  have hverIn : ∀ {v : Str} {ver : Version}, (v, ver) ∈ (loadedInv p r).versions → v = o.inv.head ∨
      ∃ ver0 k, (v, ver0) ∈ inv.versions ∧ 1 ≤ k ∧ k ≤ N ∧ v = verName (p : Int) ((k : Nat) : Int) := by
    intro v ver hv
    obtain ⟨x, hx, _⟩ := R.version' v ver hv
    rcases D.version h.ok hx with rfl | ⟨_, hx⟩
    · exact Or.inl rfl
    · obtain ⟨k, k1, k2, k3⟩ := (h.ok.mem_keys v).1 (mem_mkeys_of_mem hx)
      exact Or.inr ⟨x, k, hx, k1, k2, k3⟩
  have hstoredRoot : StoredInv w fs' r := ⟨_, _, f, st1, hdec, by rw [← e3]; exact D.hash, by rw [← e3]; exact st2,
    sidecarText_ok (hx _ f _ D.hash).1 (hx _ f _ D.hash).2⟩
  have hstoredVer : StoredInv w (subFS fs' o.inv.head) r := by
    refine ⟨_, _, f, ?_, hdec, by rw [← e3]; exact D.hash, ?_, sidecarText_ok (hx _ f _ D.hash).1 (hx _ f _ D.hash).2⟩
    · rw [mget_subFS]; exact st3
    · rw [mget_subFS, ← e3]; exact st4
  have hkeysIn : ∀ v, v ∈ mkeys inv.versions → v ∈ mkeys (loadedInv p r).versions := by
    intro v hv
    obtain ⟨k, k1, k2, k3⟩ := (h.ok.mem_keys v).1 hv
    exact (hok'.mem_keys v).2 ⟨k, k1, by omega, k3⟩
  have hheadIn : o.inv.head ∈ mkeys (loadedInv p r).versions := (hok'.mem_keys _).2 ⟨N + 1, by omega, le_refl _, s7⟩
  have hdecl : ∃ num, IsVersionNum num ∧ mget fs' (declName num) = some (asBytes (objDecl ++ num ++ "\n".toList)) ∧
      ∀ n b, mget fs' n = some b → '/' ∉ n → n = declName num ∨ n = rootInvPath ∨ n = rootSidecarPath (loadedInv p r).digestAlg := by
    obtain ⟨num, d1, d2, d3⟩ := h.decl
    refine ⟨num, d1, ?_, ?_⟩
    · rcases hch (declName num) with hw | hu
      · exfalso
        have hns := declName_slash d1
        generalize hgen : declName num = y at hw hns
        cases hw with
        | ext n => exact hns (by rw [ext_eq]; simp)
        | content q _ => exact hns (by simp)
        | verInv => exact hns (by simp)
        | verSidecar => exact hns (by simp)
        | root => exact absurd (List.cons.inj hgen).1 (by decide)
        | sidecar => exact absurd (List.cons.inj hgen).1 (by decide)
      · rw [hu]; exact d2
    · intro n b hn hsl
      rcases hch n with hw | hu
      · cases hw with
        | ext n => exact absurd (by rw [ext_eq]; simp) hsl
        | content q _ => exact absurd (by simp) hsl
        | verInv => exact absurd (by simp) hsl
        | verSidecar => exact absurd (by simp) hsl
        | root => exact Or.inr (Or.inl rfl)
        | sidecar => exact Or.inr (Or.inr (by rw [halg, s2]))
      · rw [hu] at hn
        rw [halg]
        exact d3 n b hn hsl
  have hdirs : ∀ d q b, mget fs' (d ++ '/' :: q) = some b → '/' ∉ d →
      d ∈ mkeys (loadedInv p r).versions ∨ d = "logs".toList ∨ d = "extensions".toList := by
    intro d q b hb hsl
    rcases hch (d ++ '/' :: q) with hw | hu
    · generalize hgen : d ++ '/' :: q = y at hw
      cases hw with
      | ext n =>
        rw [ext_eq] at hgen
        exact Or.inr (Or.inr (append_slash_inj hsl (by decide) hgen).1)
      | content q _ =>
        rw [List.append_assoc, List.cons_append] at hgen
        rw [(append_slash_inj hsl ho hgen).1]; exact Or.inl hheadIn
      | verInv => rw [(append_slash_inj hsl ho hgen).1]; exact Or.inl hheadIn
      | verSidecar => rw [(append_slash_inj hsl ho hgen).1]; exact Or.inl hheadIn
      | root =>
        have : '/' ∈ rootInvPath := by rw [← hgen]; simp
        exact absurd this (by decide)
      | sidecar =>
        have : '/' ∈ rootSidecarPath o.inv.digestAlg := by rw [← hgen]; simp
        exact absurd this (sidecar_noSlash hasl)
    · rw [hu] at hb
      rcases h.dirs d q b hb hsl with hk | hk
      · exact Or.inl (hkeysIn d hk)
      · exact Or.inr hk
  have hfolders : ∀ v ver, (v, ver) ∈ (loadedInv p r).versions → ∃ x b, mget fs' (v ++ '/' :: x) = some b := by
    intro v ver hv
    rcases hverIn hv with rfl | ⟨ver0, k, hv0, k1, k2, rfl⟩
    · exact ⟨rootInvPath, _, st3⟩
    · obtain ⟨x, b, hb⟩ := h.folders _ ver0 hv0
      exact ⟨x, b, by rw [hsame k x k1 k2]; exact hb⟩
  have hvfiles : ∀ v ver x b, (v, ver) ∈ (loadedInv p r).versions → mget fs' (v ++ '/' :: x) = some b →
      x = rootInvPath ∨ x = rootSidecarPath (loadedInv p r).digestAlg ∨ ∃ q, x = (loadedInv p r).contentDir ++ '/' :: q := by
    intro v ver x b hv hb
    rw [halg, hcd]
    rcases hverIn hv with rfl | ⟨ver0, k, hv0, k1, k2, rfl⟩
    · rcases hch (o.inv.head ++ '/' :: x) with hw | hu
      · obtain ⟨_, hy | hy | ⟨q, hy, _⟩⟩ := hw.inVersion rfl ho (by rw [s7]; exact (hvn _).2) ho hasl
        · exact Or.inl hy
        · exact Or.inr (Or.inl (by rw [hy, s2]))
        · exact Or.inr (Or.inr ⟨q, by rw [hy, s6]⟩)
      · rw [hu, s7] at hb
        exact absurd hb (hnew _ _)
    · rw [hsame k x k1 k2] at hb
      exact h.versionFiles _ ver0 x b hv0 hb
  have hself : SameHistory r.inv (loadedInv p r) :=
    sameHistory_refl hVr.nodup rfl rfl rfl rfl
  have hhist : ∀ i : Inv, SameHistory i (stampInv w.time inv) → (∀ u ∈ mkeys i.versions, u ∈ mkeys inv.versions) → SameHistory i (loadedInv p r) := by
    intro i hi hk
    -- the version as it was and as it is read
    have key : ∀ u a b, (u, a) ∈ i.versions → (u, b) ∈ (loadedInv p r).versions →
        ∃ c, (u, c) ∈ inv.versions ∧ SameVersion { c with created := w.time c.created } b := by
      intro u a b ha hb
      obtain ⟨c, hc, hsv⟩ := R.version' u b hb
      have hu := hk u (mem_mkeys_of_mem ha)
      refine ⟨c, ?_, hsv⟩
      rcases D.version h.ok hc with rfl | ⟨_, hc⟩
      · exact absurd rfl (D.old h.ok hu).1
      · exact hc
    refine ⟨hi.id.trans (s4.symm.trans e1), hi.contentDirectory.trans (s3.symm.trans e5), hi.alg.trans (s2.symm.trans e3), ?_, ?_, ?_⟩
    · intro u a b ha hb
      obtain ⟨c, hc, h1, h2, h3, h4, _⟩ := key u a b ha hb
      obtain ⟨g1, g2, g3, g4⟩ := hi.metadata u a _ ha (mem_stampInv.2 ⟨c, hc, rfl⟩)
      exact ⟨g1.trans h1, g2.trans h2, g3.trans h3, g4.trans h4⟩
    · intro u a b ha hb
      obtain ⟨c, hc, _, _, _, _, hp⟩ := key u a b ha hb
      exact (hi.state u a _ ha (mem_stampInv.2 ⟨c, hc, rfl⟩)).trans' (sameMapping_perm hp)
    · intro u a b ha hb d
      obtain ⟨c, hc, _, _, _, _, hp⟩ := key u a b ha hb
      rw [hi.digests u a _ ha (mem_stampInv.2 ⟨c, hc, rfl⟩) d]
      exact (hp.map Prod.fst).mem_iff
  have hinvs : ∀ n b, 0 < n → n ≤ N + 1 → mget fs' (verInvPath (verName (p : Int) (n : Int))) = some b →
      ∃ i, StoredInv w (subFS fs' (verName (p : Int) (n : Int))) i ∧ Decoded i ∧ ValidInv p n i.inv ∧
        SameHistory i.inv (loadedInv p r) ∧ DiskMatches w fs' i.inv := by
    intro n b h0 hn hb
    by_cases hle : n ≤ N
    · rw [verInv_eq, hsame n _ h0 hle, ← verInv_eq] at hb
      obtain ⟨i, ⟨b', sb, hash, k1, k2, k3, k4, k5⟩, hd, hv, hh, hm⟩ := h.inventories n b h0 hle hb
      have hin : ∀ u ∈ mkeys i.inv.versions, ∃ k : Nat, 1 ≤ k ∧ k ≤ N ∧ u = verName (p : Int) (k : Int) := by
        intro u hu
        obtain ⟨k, g1, g2, g3⟩ := (hv.mem_keys u).1 hu
        exact ⟨k, g1, by omega, g3⟩
      have hfile : ∀ c, Listed i.inv c → mget fs' c = mget fs c := by
        rintro c ⟨d, m, g1, g2⟩
        obtain ⟨v, ver, q, g3, rfl⟩ := hv.content d m c g1 g2
        obtain ⟨k, g4, g5, rfl⟩ := hin v (mem_mkeys_of_mem g3)
        rw [List.append_assoc, List.cons_append]
        exact hsame k _ g4 g5
      refine ⟨i, ⟨b', sb, hash, ?_, k2, k3, ?_, k5⟩, hd, hv, hhist i.inv hh ?_, ?_, ?_, ?_, hm.algs⟩
      · rw [mget_subFS] at k1 ⊢; rw [under, hsame n _ h0 hle]; exact k1
      · rw [mget_subFS] at k4 ⊢; rw [under, hsame n _ h0 hle]; exact k4
      · intro u hu
        obtain ⟨k, g1, g2, g3⟩ := hin u hu
        exact (h.ok.mem_keys u).2 ⟨k, g1, g2, g3⟩
      · intro d m c g1 g2
        rw [hfile c ⟨d, m, g1, g2⟩]
        exact hm.content d m c g1 g2
      · intro v ver q b g1 g2
        obtain ⟨k, g4, g5, rfl⟩ := hin v (mem_mkeys_of_mem g1)
        refine hm.complete _ ver q b g1 ?_
        rw [List.append_assoc, List.cons_append] at g2 ⊢
        rw [← hsame k _ g4 g5]; exact g2
      · intro a mm d m c g1 g2 g3
        obtain ⟨g4, g5⟩ := hm.fixity a mm d m c g1 g2 g3
        exact ⟨g4, by rw [hfile c g4]; exact g5⟩
    · have : n = N + 1 := by omega
      subst this
      rw [← s7]
      have hdr : DiskMatches w fs' r.inv := ⟨hdisk.content, hdisk.complete, hdisk.fixity, hdisk.algs⟩
      exact ⟨r, hstoredVer, R.decoded, hVr, hself, hdr⟩
  have hspecLe : ∀ n b i, 0 < n → n ≤ N + 1 → mget fs' (verInvPath (verName (p : Int) (n : Int))) = some b → w.dec b = some i →
      strLe i.inv.spec (loadedInv p r).spec = true := by
    intro n b i h0 hn hb hi
    by_cases hle : n ≤ N
    · rw [verInv_eq, hsame n _ h0 hle, ← verInv_eq] at hb
      have := h.specLe n b i h0 hle hb hi
      rw [show (loadedInv p r).spec = inv.spec from e2.symm.trans s5]
      exact this
    · have : n = N + 1 := by omega
      subst this
      rw [← s7, st3] at hb
      cases hb
      rw [hdec] at hi
      cases hi
      exact strLe_refl _
  have hspecs : ∀ n m bn bm i j, 0 < n → n ≤ m → m ≤ N + 1 → mget fs' (verInvPath (verName (p : Int) (n : Int))) = some bn →
      mget fs' (verInvPath (verName (p : Int) (m : Int))) = some bm → w.dec bn = some i → w.dec bm = some j →
      strLe i.inv.spec j.inv.spec = true := by
    intro n m bn bm i j h0 hnm hm hbn hbm hi hj
    by_cases hle : m ≤ N
    · rw [verInv_eq, hsame n _ h0 (by omega), ← verInv_eq] at hbn
      rw [verInv_eq, hsame m _ (by omega) hle, ← verInv_eq] at hbm
      exact h.specs n m bn bm i j h0 hnm hle hbn hbm hi hj
    · have : m = N + 1 := by omega
      subst this
      have h1 := hspecLe n bn i h0 hnm hbn hi
      rw [← s7, st3] at hbm
      cases hbm
      rw [hdec] at hj
      cases hj
      exact h1
  have htimes : ∀ v ver, (v, ver) ∈ (loadedInv p r).versions → w.time ver.created = ver.created := by
    intro v ver hv
    obtain ⟨x, _, h1, _⟩ := R.version' v ver hv
    rw [← h1]
    exact ht _
  refine ⟨⟨hnodup, hstoredRoot, R.decoded, hVr, ?_, ⟨hdisk.content, hdisk.complete, hdisk.fixity, hdisk.algs⟩, hdecl, hdirs,
    hfolders, hvfiles, ?_, ?_, hspecs⟩, ⟨hok', hdisk, hnodup, hdecl, hdirs, hfolders, hvfiles, hinvs, hspecs, hspecLe, htimes⟩⟩
  · exact hok'.alg
  · intro n b h0 hn hb
    obtain ⟨i, i1, i2, i3, i4, i5⟩ := hinvs n b h0 hn hb
    exact ⟨i, i1, i2, i3, ⟨i4.id, i4.contentDirectory, i4.alg, i4.metadata, i4.state, i4.digests⟩, i5⟩
  · exact ⟨_, by rw [← e4]; exact st3, st1⟩

/-- **C80.** After a session on an intact object, the folder holds a valid object in the sense of the specification,
with one version more; what is read from the new inventory is intact again. -/
theorem C80_session_valid {w : World} (hc : Codec w) (hx : HexHash w) (hL : LowerHash w)
    (ht : ∀ t, w.time (w.time t) = w.time t) {fs : FS} {p N : Nat} {inv : Inv} {s : Session} (h : Intact w fs p N inv)
    (hs : CleanSession w p N inv s) :
    ∃ r, w.dec (w.enc (session w inv s).obj.inv) = some r ∧ ReadBack w (session w inv s).obj.inv r ∧
      ValidObject w (applyOps fs (session w inv s).obj.trace) p (N + 1) r ∧
      Intact w (applyOps fs (session w inv s).obj.trace) p (N + 1) (loadedInv p r) :=
  staged_session hc hx hL ht h.staged hs

end Gocfl
