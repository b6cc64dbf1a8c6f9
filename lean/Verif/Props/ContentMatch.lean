import Verif.Props.Sessions

/-!
# Stored content matches its digest (C25)
-/

namespace Gocfl

/-- every content path of the manifest is a file whose content has the digest it is listed under (letter case of
hexadecimal digits does not matter) -/
def ContentOk (h : Bytes → Str) (inv : Inv) (fs : FS) : Prop :=
  ∀ d m p, (d, m) ∈ inv.manifest → p ∈ m → ∃ b, mget fs p = some b ∧ toLower (h b) = toLower d

/-- a file in the directory of one of the versions `1..n` -/
def VersionFile (inv : Inv) (n : Nat) (q : Str) : Prop :=
  ∃ k : Nat, 1 ≤ k ∧ k ≤ n ∧ ∃ rest, q = verName inv.paddingLength k ++ '/' :: rest

/-- **C25, full statement** (false): a completed session on an object with intact content leaves intact content. -/
def C25_full : Prop :=
  ∀ (w : World) (inv : Inv) (n : Nat) (s : Session) (fs : FS) (h : Bytes → Str), WF inv n →
    ValidComp inv.contentDir → w.hash inv.digestAlg = some h → ContentOk h inv fs →
    (∀ d m p, (d, m) ∈ inv.manifest → p ∈ m → VersionFile inv n p) → SafeNames w s →
    (session w inv s).err = none → ContentOk h (session w inv s).obj.inv (applyOps fs (session w inv s).obj.trace)

theorem charToLower_of_not {c : Char} (h : ¬ (c.val ≥ 'A'.val ∧ c.val ≤ 'Z'.val)) : c.toLower = c := by
  unfold Char.toLower; rw [dif_neg h]

theorem charToLower_idem (c : Char) : c.toLower.toLower = c.toLower := by
  by_cases h : c.val ≥ 'A'.val ∧ c.val ≤ 'Z'.val
  · have h1 : ¬ (c.toLower.val ≥ 'A'.val ∧ c.toLower.val ≤ 'Z'.val) := by
      unfold Char.toLower
      rw [dif_pos h]
      simp only [ge_iff_le, UInt32.le_iff_toNat_le, UInt32.toNat_add] at h ⊢
      have e1 : ('A'.val).toNat = 65 := by decide
      have e2 : ('Z'.val).toNat = 90 := by decide
      have e3 : ('a'.val - 'A'.val).toNat = 32 := by decide
      rw [e1, e2] at h ⊢
      rw [e3]
      omega
    exact charToLower_of_not h1
  · rw [charToLower_of_not h, charToLower_of_not h]

theorem toLower_idem (s : Str) : toLower (toLower s) = toLower s := by
  unfold toLower
  rw [List.map_map]
  exact List.map_congr_left (fun c _ => charToLower_idem c)

/-! ## Traces as lists of file writes -/

/-- `(p, some b)`: file `p` written with content `b`; `(p, none)`: file `p` created -/
abbrev Block := Str × Option Bytes

def Block.ops (b : Block) : List FsOp :=
  match b.2 with
  | some d => writeFile b.1 d
  | none => [.create b.1]

def render (bl : List Block) : List FsOp := bl.flatMap Block.ops

theorem render_append (a b : List Block) : render (a ++ b) = render a ++ render b := by simp [render]
theorem render_single (p : Str) (d : Bytes) : render [(p, some d)] = writeFile p d := by simp [render, Block.ops]

theorem mem_render_path {bl : List Block} {op : FsOp} (h : op ∈ render bl) : op.path ∈ bl.map Prod.fst := by
  obtain ⟨b, hb, h⟩ := List.mem_flatMap.1 h
  refine List.mem_map.2 ⟨b, hb, ?_⟩
  obtain ⟨p, d⟩ := b
  cases d with
  | none => simp only [Block.ops, List.mem_cons, List.not_mem_nil, or_false] at h; subst h; rfl
  | some d => exact (mem_writeFile_path h).symm

/-- the files created in a trace, in order, with repetitions -/
def creates (t : List FsOp) : List Str :=
  t.filterMap (fun op => match op with | .create p => some p | .append _ _ => none)

theorem creates_append (a b : List FsOp) : creates (a ++ b) = creates a ++ creates b := by simp [creates]

theorem creates_render (bl : List Block) : creates (render bl) = bl.map Prod.fst := by
  induction bl with
  | nil => rfl
  | cons b bl ih =>
    rw [show b :: bl = [b] ++ bl from rfl, render_append, creates_append, ih]
    obtain ⟨p, d⟩ := b
    cases d <;> rfl

/-- a file written exactly once has what was written -/
theorem mget_render_once {bl : List Block} {p : Str} {d : Bytes} (h : (p, some d) ∈ bl)
    (h1 : (bl.map Prod.fst).count p ≤ 1) (fs : FS) : mget (applyOps fs (render bl)) p = some d := by
  obtain ⟨a, b, rfl⟩ := List.append_of_mem h
  rw [List.map_append, List.count_append, List.map_cons, List.count_cons_self] at h1
  have hb : p ∉ b.map Prod.fst := List.count_eq_zero.1 (by omega)
  rw [show a ++ (p, some d) :: b = (a ++ [(p, some d)]) ++ b by simp, render_append, applyOps_append,
    mget_applyOps_ne]
  · rw [render_append, applyOps_append, render_single, mget_writeFile]
  · intro op hop he
    exact hb (he ▸ mem_render_path hop)

/-! ## What is recorded was written -/

/-- the contents a call brings -/
def Call.contents : Call → List Bytes
  | .add _ _ d _ => [d]
  | .reader _ _ d => [d]
  | _ => []

/-- All writes of `o` are file writes, and every content path of the manifest is an old one or was written with
content in `B` that has the digest. -/
def Recorded (B : Bytes → Prop) (h : Bytes → Str) (inv0 : Inv) (o : Obj) : Prop :=
  ∃ bl, o.trace = render bl ∧ ∀ d m p, (d, m) ∈ o.inv.manifest → p ∈ m →
    (∃ m0, (d, m0) ∈ inv0.manifest ∧ p ∈ m0) ∨ ∃ b, B b ∧ (p, some b) ∈ bl ∧ toLower (h b) = d

theorem Recorded.same {B : Bytes → Prop} {h : Bytes → Str} {inv0 : Inv} {o o' : Obj} (hr : Recorded B h inv0 o)
    (hm : o'.inv.manifest = o.inv.manifest) {bl : List Block} (ht : o'.trace = o.trace ++ render bl) :
    Recorded B h inv0 o' := by
  obtain ⟨b0, h1, h2⟩ := hr
  refine ⟨b0 ++ bl, by rw [ht, h1, render_append], ?_⟩
  rw [hm]
  intro d m p hd hp
  rcases h2 d m p hd hp with h | ⟨b, hB, hb, h⟩
  · exact Or.inl h
  · exact Or.inr ⟨b, hB, List.mem_append.2 (Or.inl hb), h⟩

theorem Recorded.congr {B : Bytes → Prop} {h : Bytes → Str} {inv0 : Inv} {o o' : Obj} (hr : Recorded B h inv0 o)
    (hm : o'.inv.manifest = o.inv.manifest) (ht : o'.trace = o.trace) : Recorded B h inv0 o' :=
  hr.same hm (bl := []) (by rw [ht]; simp [render])

theorem mem_mset_of {K V : Type} [DecidableEq K] {m : AMap K V} {k : K} {v : V} {e : K × V} (h : e ∈ mset m k v) :
    e = (k, v) ∨ e ∈ m := by
  induction m with
  | nil => simp [mset] at h; exact Or.inl h
  | cons x m ih =>
    obtain ⟨a, b⟩ := x
    unfold mset at h
    split at h
    · rcases List.mem_cons.1 h with h | h
      · left; exact h
      · exact Or.inr (List.mem_cons_of_mem _ h)
    · rcases List.mem_cons.1 h with h | h
      · right; rw [h]; exact List.mem_cons_self
      · rcases ih h with h | h
        · exact Or.inl h
        · exact Or.inr (List.mem_cons_of_mem _ h)

theorem manAdd_entries {m : DMap} {mp d : Str} {e : Str} {l : List Str} {p : Str} (h : (e, l) ∈ manAdd m mp d)
    (hp : p ∈ l) : (∃ l0, (e, l0) ∈ m ∧ p ∈ l0) ∨ (e = d ∧ p = mp) := by
  unfold manAdd at h
  split at h
  · rcases mem_mset_of h with h | h
    · cases h
      rcases List.mem_append.1 hp with hp | hp
      · left
        unfold mgetD at hp
        cases hg : mget m d with
        | none => rw [hg] at hp; cases hp
        | some l0 => rw [hg] at hp; exact ⟨l0, mem_of_mget hg, hp⟩
      · right; exact ⟨rfl, by simpa using hp⟩
    · exact Or.inl ⟨l, h, hp⟩
  · exact Or.inl ⟨l, h, hp⟩

/-- what recording a file adds to the manifest -/
theorem addFile_entries {inv inv' : Inv} {ns : List Str} {mp : Str} {cs : AMap Str Str}
    (h : addFile inv ns mp cs = .ok inv') : ∃ dig, mget cs inv.digestAlg = some dig ∧
      ∀ e l p, (e, l) ∈ inv'.manifest → p ∈ l →
        (∃ l0, (e, l0) ∈ inv.manifest ∧ p ∈ l0) ∨ (e = toLower dig ∧ p = mp) := by
  obtain ⟨dig, hd, h⟩ := addFile_ok h
  refine ⟨dig, hd, ?_⟩
  obtain ⟨_, _, hm, _⟩ := addFixity_fold inv mp cs
  refine foldlM_inv (P := fun i => ∀ e l p, (e, l) ∈ i.manifest → p ∈ l →
    (∃ l0, (e, l0) ∈ inv.manifest ∧ p ∈ l0) ∨ (e = toLower dig ∧ p = mp)) ?_ _ _ ?_ h
  · intro b a b' _ hb hab e l p he hp
    obtain ⟨_, _, _, _, _, _, _, hm, _⟩ := addName_ok hab
    rw [hm] at he
    rcases manAdd_entries he hp with ⟨l0, h1, h2⟩ | h1
    · exact hb _ _ _ h1 h2
    · exact Or.inr h1
  · intro e l p he hp
    rw [hm] at he
    exact Or.inl ⟨l, he, hp⟩

theorem checksums_get {w : World} {algs : List Str} {data : Bytes} {cs : AMap Str Str}
    (h : checksums w algs data = some cs) {a d : Str} (hd : mget cs a = some d) :
    ∃ f, w.hash a = some f ∧ d = f data := by
  unfold checksums at h
  induction algs generalizing cs with
  | nil => simp at h; subst h; cases hd
  | cons x algs ih =>
    rw [List.mapM_cons] at h
    cases hx : w.hash x with
    | none => rw [hx] at h; cases h
    | some f =>
      rw [hx] at h
      cases hr : algs.mapM (fun a => (w.hash a).map (fun h => (a, h data))) with
      | none => rw [hr] at h; cases h
      | some r =>
        rw [hr] at h
        cases h
        have hd' : (if x = a then some (f data) else mget r a) = some d := hd
        by_cases hk : x = a
        · rw [if_pos hk] at hd'
          exact ⟨f, hk ▸ hx, (Option.some.inj hd').symm⟩
        · rw [if_neg hk] at hd'
          exact ih hr hd'

theorem Recorded.addReader {w : World} {B : Bytes → Prop} {h : Bytes → Str} {inv0 : Inv} {o : Obj} (hr : Recorded B h inv0 o)
    (hh : w.hash o.inv.digestAlg = some h) (names : List Str) (mp : Str) {data : Bytes} (hB : B data) :
    Recorded B h inv0 (addReader w o names mp data).obj := by
  unfold Gocfl.addReader
  simp only
  split
  · exact hr.same (o' := _) rfl (bl := [(mp, none)]) rfl
  · rename_i cs hcs
    have ht : render [(mp, some data)] = writeFile mp data := render_single mp data
    unfold withInv
    cases hf : addFile o.inv names mp cs with
    | error e => exact hr.same rfl (bl := [(mp, some data)]) (by rw [ht]; rfl)
    | ok i =>
      obtain ⟨dig, h1, h2⟩ := addFile_entries hf
      obtain ⟨f, h3, rfl⟩ := checksums_get hcs h1
      rw [hh] at h3; cases h3
      obtain ⟨b0, g1, g2⟩ := hr
      refine ⟨b0 ++ [(mp, some data)], by rw [render_append, ht, ← g1]; rfl, ?_⟩
      intro d m p hd hp
      rcases h2 d m p hd hp with ⟨l0, k1, k2⟩ | ⟨rfl, rfl⟩
      · rcases g2 d l0 p k1 k2 with k | ⟨b, kB, kb, k⟩
        · exact Or.inl k
        · exact Or.inr ⟨b, kB, List.mem_append.2 (Or.inl kb), k⟩
      · exact Or.inr ⟨data, hB, List.mem_append.2 (Or.inr (by simp)), rfl⟩

theorem copyFile_manifest {inv inv' : Inv} {a b : Str} (h : copyFile inv a b = .ok inv') :
    inv'.manifest = inv.manifest := by
  obtain ⟨_, _, _, ⟨_, rfl⟩ | ⟨_, rfl⟩⟩ := copyFile_ok h
  · rfl
  · exact setHeadState_manifest _ _

theorem renameFile_manifest {inv inv' : Inv} {a b : Str} (h : renameFile inv a b = .ok inv') :
    inv'.manifest = inv.manifest := by
  obtain ⟨_, _, rfl⟩ := renameFile_ok h
  exact setHeadState_manifest _ _

theorem Recorded.withInv {B : Bytes → Prop} {h : Bytes → Str} {inv0 : Inv} {o : Obj} (hr : Recorded B h inv0 o) {r : Res Inv}
    (hm : ∀ i, r = .ok i → i.manifest = o.inv.manifest) : Recorded B h inv0 (withInv o r).obj := by
  unfold Gocfl.withInv
  cases r with
  | error e => exact hr
  | ok i => exact hr.congr (hm i rfl) rfl

theorem Recorded.echo {w : World} {B : Bytes → Prop} {h : Bytes → Str} {inv0 : Inv} {o : Obj} (hr : Recorded B h inv0 o) :
    Recorded B h inv0 (objEcho w o).obj := by
  unfold objEcho
  split
  · exact hr
  · rename_i base _
    have h0 : Recorded B h inv0 { o with updateFiles := slicesCompact (sortStr o.updateFiles) } := hr.congr rfl rfl
    exact h0.withInv (fun i hi => echoDelete_manifest hi)

theorem Recorded.echoIf {w : World} {B : Bytes → Prop} {h : Bytes → Str} {inv0 : Inv} {o : Obj} (hr : Recorded B h inv0 o) :
    Recorded B h inv0 (if o.echo then objEcho w o else ok o).obj := by
  split
  · exact hr.echo
  · exact hr

theorem Recorded.ifExists {B : Bytes → Prop} {h : Bytes → Str} {inv0 : Inv} {o : Obj} (hr : Recorded B h inv0 o) {p d : Str}
    {f : Inv → Res Inv} (hm : ∀ i j, f i = .ok j → j.manifest = i.manifest) :
    Recorded B h inv0 (objIfExists o p d f).obj := by
  unfold objIfExists
  split
  · exact hr
  · split
    · exact hr
    · exact hr
    · exact hr.withInv (fun i hi => hm _ _ hi)

theorem Recorded.call {w : World} {B : Bytes → Prop} {h : Bytes → Str} {inv0 : Inv} {o : Obj} (hr : Recorded B h inv0 o)
    (hh : w.hash o.inv.digestAlg = some h) (c : Call) (hc : ∀ b ∈ c.contents, B b) : Recorded B h inv0 (runCall w o c).obj := by
  cases c with
  | add p a data cd =>
    show Recorded B h inv0 (objAdd w o p a data cd).obj
    unfold objAdd
    split
    · exact hr
    · split
      · exact hr
      · rename_i names mp hb
        have h0 : Recorded B h inv0 { o with updateFiles := o.updateFiles ++ [names.headD []] } := hr.congr rfl rfl
        simp only
        split
        · split
          · exact h0
          · unfold addChecked
            split
            · exact h0
            · exact h0
            · split
              · exact h0.withInv (fun i hi => copyFile_manifest hi)
              · exact h0.addReader hh _ _ (hc _ (by simp [Call.contents]))
        · exact h0.addReader hh _ _ (hc _ (by simp [Call.contents]))
  | reader fs a data =>
    show Recorded B h inv0 (objAddReader w o fs a data).obj
    unfold objAddReader
    split
    · exact hr
    · split
      · exact hr
      · split
        · exact hr
        · exact hr.addReader hh _ _ (hc _ (by simp [Call.contents]))
  | delete p d => exact hr.ifExists (fun i j h => deleteFile_manifest h)
  | rename a b d => exact hr.ifExists (fun i j h => renameFile_manifest h)
  | beginArea => exact hr.congr rfl rfl
  | endArea =>
    unfold runCall
    exact andThen_good hr.echoIf (fun hx => hx.congr rfl rfl)
  | ext n d => exact hr.same rfl (bl := [(extPath n, some d)]) (by rw [render_single]; rfl)

/-- an object whose writes are recorded correctly, with the digest algorithm of `inv0` -/
def RecAlg (B : Bytes → Prop) (h : Bytes → Str) (inv0 : Inv) (o : Obj) : Prop :=
  Recorded B h inv0 o ∧ o.inv.digestAlg = inv0.digestAlg

theorem RecAlg.echoIf {w : World} {B : Bytes → Prop} {h : Bytes → Str} {inv0 : Inv} {o : Obj} (hr : RecAlg B h inv0 o) :
    RecAlg B h inv0 (if o.echo then objEcho w o else ok o).obj :=
  ⟨hr.1.echoIf, (echoIf_step (w := w) (U := fun _ _ => True)).headOnly.alg.trans hr.2⟩

theorem RecAlg.store {w : World} {B : Bytes → Prop} {h : Bytes → Str} {inv0 : Inv} {o : Obj} (hr : RecAlg B h inv0 o) (v r : Bool) :
    RecAlg B h inv0 (storeInventory w o v r).obj := by
  refine ⟨?_, by rw [storeInventory_trace.1]; exact hr.2⟩
  unfold storeInventory
  split
  · exact hr.1
  · split
    · exact hr.1
    · rename_i f _
      refine hr.1.same rfl (bl :=
        (if r then [(rootInvPath, some (w.enc o.inv)),
          (rootSidecarPath o.inv.digestAlg, some (sidecarText (f (w.enc o.inv))))] else []) ++
        (if v then [(verInvPath o.inv.head, some (w.enc o.inv)),
          (verSidecarPath o.inv.head o.inv.digestAlg, some (sidecarText (f (w.enc o.inv))))] else [])) ?_
      rw [render_append]
      cases r <;> cases v <;> rfl

/-- An invariant of calls (those in `C`), of mirror deletion, of opening a version, of storing and of extension
writes holds at every point of a session with such calls. -/
structure SessionInv (w : World) (C : Call → Prop) (P : Obj → Prop) : Prop where
  call : ∀ o c, C c → P o → P (runCall w o c).obj
  echo : ∀ o, P o → P (if o.echo then objEcho w o else ok o).obj
  open_ : ∀ o e i m u a t, P o → newVersion o.inv m u a t = .ok i → P { o with echo := e, inv := i }
  openErr : ∀ o e, P o → P { o with echo := e }
  store : ∀ o v r, P o → P (storeInventory w o v r).obj
  ext : ∀ o n d, P o → P (o.write (writeFile (extPath n) d))

theorem SessionInv.calls {w : World} {C : Call → Prop} {P : Obj → Prop} (hP : SessionInv w C P) {o : Obj} (h : P o)
    {cs : List Call} (hc : ∀ c ∈ cs, C c) : P (runCalls w o cs).obj := by
  induction cs generalizing o with
  | nil => exact h
  | cons c cs ih =>
    unfold runCalls
    exact andThen_good (hP.call o c (hc c (by simp)) h) (fun hx => ih hx (fun c h => hc c (List.mem_cons_of_mem _ h)))

theorem SessionInv.start {w : World} {C : Call → Prop} {P : Obj → Prop} (hP : SessionInv w C P) {o : Obj} (h : P o)
    (v : VInfo) (e : Bool) {cs : List Call} (hc : ∀ c ∈ cs, C c) : P (startUpdate w o v e cs).obj := by
  unfold startUpdate
  refine andThen_good ?_ (fun hx => hP.calls hx hc)
  unfold withInv
  cases hv : newVersion o.inv v.msg v.userName v.userAddress v.now with
  | error err => exact hP.openErr o e h
  | ok i => exact hP.open_ o e i _ _ _ _ h hv

theorem SessionInv.endPart {w : World} {C : Call → Prop} {P : Obj → Prop} (hP : SessionInv w C P) {o : Obj} (h : P o)
    (hm : o.inv.modified = true) {after : List Call} (hc : ∀ c ∈ after, C c) {f : Obj → Out}
    (hf : ∀ o, P o → P (f o).obj) :
    P ((if o.echo then objEcho w o else ok o).andThen fun o =>
       (runCalls w o after).andThen fun o =>
       (withInv o (clean o.inv)).andThen fun o => (storeInventory w o true false).andThen f).obj := by
  have h1 : P (if o.echo then objEcho w o else ok o).obj ∧
      (if o.echo then objEcho w o else ok o).obj.inv.modified = true :=
    ⟨hP.echo o h, (echoIf_step (w := w) (U := fun _ _ => True)).modified hm⟩
  generalize (if o.echo then objEcho w o else ok o) = x at h1
  cases he : x.err with
  | some e => rw [andThen_some he]; exact h1.1
  | none =>
    rw [andThen_none he]
    have h2 : P (runCalls w x.obj after).obj ∧ (runCalls w x.obj after).obj.inv.modified = true :=
      ⟨hP.calls h1.1 hc, (runCalls_step (U := fun _ _ => True) after (fun _ _ _ _ => trivial)).modified h1.2⟩
    generalize runCalls w x.obj after = y at h2
    cases he : y.err with
    | some e => rw [andThen_some he]; exact h2.1
    | none =>
      rw [andThen_none he, clean_modified h2.2]
      exact andThen_good (P := P) (x := storeInventory w y.obj true false) (hP.store _ _ _ h2.1) (fun hx => hf _ hx)

def Round.calls (r : Round) : List Call := r.before ++ r.body ++ r.after

theorem SessionInv.endUpdate {w : World} {C : Call → Prop} {P : Obj → Prop} (hP : SessionInv w C P) {o : Obj} (h : P o)
    {after : List Call} (hc : ∀ c ∈ after, C c) {rounds : List Round} (hr : ∀ r ∈ rounds, ∀ c ∈ r.calls, C c) :
    P (endUpdate w o after rounds).obj := by
  induction rounds generalizing o after with
  | nil =>
    unfold Gocfl.endUpdate
    split
    · exact h
    · split
      · exact h
      · rename_i hm
        have := hP.endPart h (not_false_iff hm) hc (f := ok) (fun o h => h)
        simpa only [andThen_ok_right] using this
  | cons r rs ih =>
    have hr1 := hr r (by simp)
    unfold Gocfl.endUpdate
    split
    · exact h
    · split
      · exact h
      · rename_i hm
        refine hP.endPart h (not_false_iff hm) hc (fun o h => ?_)
        refine andThen_good (hP.start h _ _ (fun c hc => hr1 c (by simp [Round.calls, hc]))) (fun h => ?_)
        refine andThen_good (hP.calls h (fun c hc => hr1 c (by simp [Round.calls, hc]))) (fun h => ih h ?_ ?_)
        · exact fun c hc => hr1 c (by simp [Round.calls, hc])
        · exact fun r hx => hr r (List.mem_cons_of_mem _ hx)

theorem SessionInv.close {w : World} {C : Call → Prop} {P : Obj → Prop} (hP : SessionInv w C P) {o : Obj} (h : P o)
    (exts : List (Str × Bytes)) : P (closeObj w o exts).obj := by
  unfold closeObj
  split
  · exact h
  · split
    · exact h
    · rename_i hm
      rw [clean_modified (not_false_iff hm)]
      rw [show withInv o (Except.ok o.inv) = ok o from rfl, andThen_ok]
      refine andThen_good (P := P) (x := storeInventory w o false true) (hP.store _ _ _ h) (fun hx => ?_)
      generalize (storeInventory w o false true).obj = y at hx
      induction exts generalizing y with
      | nil => simpa [ok, Obj.write] using hx
      | cons e exts ih =>
        have := ih (y.write (writeFile (extPath e.1) e.2)) (hP.ext _ _ _ hx)
        simpa [ok, Obj.write] using this

/-- all calls of a session -/
def Session.calls (s : Session) : List Call := s.before ++ s.body ++ s.after ++ s.rounds.flatMap Round.calls

/-- what follows the opening of the first version -/
def sessionRest (w : World) (o : Obj) (s : Session) : Out :=
  ((runCalls w o s.before).andThen fun o =>
    (runCalls w o s.body).andThen fun o => endUpdate w o s.after s.rounds).andThen fun o => closeObj w o s.exts

theorem SessionInv.rest {w : World} {C : Call → Prop} {P : Obj → Prop} (hP : SessionInv w C P) {o : Obj} (h : P o)
    {s : Session} (hc : ∀ c ∈ s.calls, C c) : P (sessionRest w o s).obj := by
  unfold sessionRest
  refine andThen_good (andThen_good (hP.calls h ?_) fun h => ?_) (fun h => hP.close h _)
  · exact fun c hx => hc c (by simp [Session.calls, hx])
  · refine andThen_good (hP.calls h ?_) (fun h => hP.endUpdate h ?_ ?_)
    · exact fun c hx => hc c (by simp [Session.calls, hx])
    · exact fun c hx => hc c (by simp [Session.calls, hx])
    · exact fun r hr c hx => hc c (by
        simp only [Session.calls, List.mem_append, List.mem_flatMap]
        exact Or.inr ⟨r, hr, hx⟩)

theorem session_eq_rest {w : World} {inv : Inv} {s : Session} {i : Inv}
    (h : newVersion inv s.info.msg s.info.userName s.info.userAddress s.info.now = .ok i) :
    session w inv s = sessionRest w ⟨i, [], s.echo, []⟩ s := by
  unfold session sessionOpen startUpdate sessionRest
  simp only [h]
  rfl

theorem session_eq_err {w : World} {inv : Inv} {s : Session} {e : GoErr}
    (h : newVersion inv s.info.msg s.info.userName s.info.userAddress s.info.now = .error e) :
    session w inv s = ⟨⟨inv, [], s.echo, []⟩, some e⟩ := by
  unfold session sessionOpen startUpdate
  simp only [h]
  rfl

theorem SessionInv.session {w : World} {C : Call → Prop} {P : Obj → Prop} (hP : SessionInv w C P) {inv : Inv}
    (h : P ⟨inv, [], false, []⟩) {s : Session} (hc : ∀ c ∈ s.calls, C c) : P (session w inv s).obj := by
  cases hv : newVersion inv s.info.msg s.info.userName s.info.userAddress s.info.now with
  | error e => rw [session_eq_err hv]; exact hP.openErr _ _ h
  | ok i => rw [session_eq_rest hv]; exact hP.rest (hP.open_ _ _ i _ _ _ _ h hv) hc

theorem recAlg_inv {w : World} {B : Bytes → Prop} {h : Bytes → Str} {inv0 : Inv} (hh : w.hash inv0.digestAlg = some h) :
    SessionInv w (fun c => ∀ b ∈ c.contents, B b) (RecAlg B h inv0) where
  call o c hc hr := ⟨hr.1.call (by rw [hr.2]; exact hh) c hc,
    (runCall_step (U := fun _ _ => True) c (fun _ _ => trivial)).headOnly.alg.trans hr.2⟩
  echo o hr := hr.echoIf
  open_ o e i m u a t hr hv :=
    ⟨hr.1.congr (newVersion_frame hv).2.2.2.2.2.1 rfl, (newVersion_frame hv).2.2.1.trans hr.2⟩
  openErr o e hr := ⟨hr.1.congr rfl rfl, hr.2⟩
  store o v r hr := hr.store v r
  ext o n d hr := ⟨hr.1.same rfl (bl := [(extPath n, some d)]) (by rw [render_single]; rfl), hr.2⟩

/-- **C25**, what always holds, for all sessions whether they succeed or not, and whatever the names: a content path
is intact afterwards if it is an old one the session did not touch, or one the session wrote once. -/
theorem C25_content_matches_partial {w : World} {inv : Inv} {s : Session} {fs : FS} {h : Bytes → Str}
    (hh : w.hash inv.digestAlg = some h) (hok : ContentOk h inv fs)
    (hold : ∀ d m p, (d, m) ∈ inv.manifest → p ∈ m → p ∉ creates (session w inv s).obj.trace)
    (honce : ∀ d m p, (d, m) ∈ (session w inv s).obj.inv.manifest → p ∈ m →
      (creates (session w inv s).obj.trace).count p ≤ 1) :
    ContentOk h (session w inv s).obj.inv (applyOps fs (session w inv s).obj.trace) := by
  have hrec : RecAlg (fun _ => True) h inv (session w inv s).obj := (recAlg_inv hh).session
    ⟨⟨[], rfl, fun d m p hd hp => Or.inl ⟨m, hd, hp⟩⟩, rfl⟩ (fun _ _ _ _ => trivial)
  obtain ⟨⟨bl, h1, h2⟩, _⟩ := hrec
  intro d m p hd hp
  have hc := honce d m p hd hp
  rw [h1] at hold hc ⊢
  rw [creates_render] at hc
  rcases h2 d m p hd hp with ⟨m0, k1, k2⟩ | ⟨b, _, k1, k2⟩
  · obtain ⟨b, hb, he⟩ := hok d m0 p k1 k2
    refine ⟨b, ?_, he⟩
    rw [mget_applyOps_ne, hb]
    intro op hop hpath
    have := hold d m0 p k1 k2
    rw [creates_render] at this
    exact this (hpath ▸ mem_render_path hop)
  · refine ⟨b, mget_render_once k1 hc fs, ?_⟩
    rw [← k2, toLower_idem]

/-! ## Sessions whose names are distinct -/

/-- the content path (of the head version) a call may write -/
def targetOf (w : World) (inv : Inv) (x : Str × Str) : Option Str :=
  match w.manifestPath x.1 x.2 with
  | .ok i => some (buildManifestName inv i)
  | .error _ => none

def targets (w : World) (inv : Inv) (cs : List Call) : List Str := (callsUses cs).filterMap (targetOf w inv)

def Listed (inv : Inv) (p : Str) : Prop := ∃ d m, (d, m) ∈ inv.manifest ∧ p ∈ m

/-- a path at least two directories deep and not below `extensions` (as content paths are) -/
def Plain (p : Str) : Prop := 2 ≤ p.count '/' ∧ topOf p ≠ "extensions".toList

/-- from `o` to `o'` content is recorded at paths in `T` only, and files (other than those of extensions) are
written as often as they are in `T` -/
structure Tally (T : List Str) (o o' : Obj) : Prop where
  man : ∀ p, Listed o'.inv p → Listed o.inv p ∨ p ∈ T
  cnt : ∀ p, Plain p → (creates o'.trace).count p ≤ (creates o.trace).count p + T.count p

theorem Tally.trans {T1 T2 : List Str} {a b c : Obj} (h : Tally T1 a b) (h' : Tally T2 b c) :
    Tally (T1 ++ T2) a c where
  man p hp := by
    rcases h'.man p hp with hp | hp
    · rcases h.man p hp with hp | hp
      · exact Or.inl hp
      · exact Or.inr (List.mem_append.2 (Or.inl hp))
    · exact Or.inr (List.mem_append.2 (Or.inr hp))
  cnt p hp := by
    have h1 := h.cnt p hp
    have h2 := h'.cnt p hp
    rw [List.count_append]; omega

theorem Tally.same {T : List Str} {o o' : Obj} (hm : o'.inv.manifest = o.inv.manifest) (ht : o'.trace = o.trace) :
    Tally T o o' where
  man p hp := by
    left
    unfold Listed at hp ⊢
    rw [← hm]; exact hp
  cnt p hp := by rw [ht]; omega

theorem tally_andThen {T1 T2 : List Str} {a : Obj} {x : Out} {f : Obj → Out} (h1 : Tally T1 a x.obj)
    (h2 : Tally T2 x.obj (f x.obj).obj) : Tally (T1 ++ T2) a (x.andThen f).obj := by
  cases he : x.err with
  | none => rw [andThen_none he]; exact h1.trans h2
  | some e => rw [andThen_some he]; exact h1.trans (Tally.same rfl rfl)

theorem tally_withInv {T : List Str} {o : Obj} {r : Res Inv} (h : ∀ i, r = .ok i → i.manifest = o.inv.manifest) :
    Tally T o (withInv o r).obj := by
  unfold withInv
  cases r with
  | error e => exact Tally.same rfl rfl
  | ok i => exact Tally.same (h i rfl) rfl

theorem tally_addReader {w : World} {o : Obj} {names : List Str} {mp : Str} {data : Bytes} :
    Tally [mp] o (addReader w o names mp data).obj := by
  unfold addReader
  simp only
  have hc : ∀ p (t : List FsOp), creates t = [mp] → (creates (o.trace ++ t)).count p ≤
      (creates o.trace).count p + [mp].count p := by
    intro p t ht
    rw [creates_append, List.count_append, ht]
  split
  · exact ⟨fun p hp => Or.inl hp, fun p _ => hc p [.create mp] rfl⟩
  · rename_i cs hcs
    unfold withInv
    cases hf : addFile o.inv names mp cs with
    | error e => exact ⟨fun p hp => Or.inl hp, fun p _ => hc p (writeFile mp data) rfl⟩
    | ok i =>
      refine ⟨?_, fun p _ => hc p (writeFile mp data) rfl⟩
      rintro p ⟨d, m, hd, hp⟩
      obtain ⟨_, _, h2⟩ := addFile_entries hf
      rcases h2 d m p hd hp with ⟨l0, h3, h4⟩ | ⟨_, rfl⟩
      · exact Or.inl ⟨d, l0, h3, h4⟩
      · exact Or.inr (by simp)

theorem tally_ifExists {T : List Str} {o : Obj} {p d : Str} {f : Inv → Res Inv}
    (hm : ∀ i j, f i = .ok j → j.manifest = i.manifest) : Tally T o (objIfExists o p d f).obj := by
  unfold objIfExists
  split
  · exact Tally.same rfl rfl
  · split
    · exact Tally.same rfl rfl
    · exact Tally.same rfl rfl
    · exact tally_withInv (fun i hi => hm _ _ hi)

theorem tally_echo {T : List Str} {w : World} {o : Obj} : Tally T o (if o.echo then objEcho w o else ok o).obj := by
  split
  · unfold objEcho
    split
    · exact Tally.same rfl rfl
    · rename_i base _
      exact (Tally.same (T := []) (o := o)
        (o' := { o with updateFiles := slicesCompact (sortStr o.updateFiles) }) rfl rfl).trans
        (tally_withInv (fun i hi => echoDelete_manifest hi))
  · exact Tally.same rfl rfl

theorem tally_call {w : World} {o : Obj} (c : Call) : Tally (targets w o.inv [c]) o (runCall w o c).obj := by
  cases c with
  | add p a data cd =>
    show Tally _ o (objAdd w o p a data cd).obj
    unfold objAdd
    split
    · exact Tally.same rfl rfl
    · split
      · exact Tally.same rfl rfl
      · rename_i names mp hb
        obtain ⟨_, i, hi, hmp⟩ := buildNames_ok hb
        have hi : w.manifestPath p a = .ok i := hi
        have ht : targets w o.inv [.add p a data cd] = [mp] := by
          simp [targets, callsUses, Call.uses, targetOf, hi, hmp]
        rw [ht]
        have h0 : Tally [] o { o with updateFiles := o.updateFiles ++ [names.headD []] } := Tally.same rfl rfl
        simp only
        split
        · split
          · exact Tally.same rfl rfl
          · unfold addChecked
            split
            · exact Tally.same rfl rfl
            · exact Tally.same rfl rfl
            · split
              · exact h0.trans (tally_withInv (fun i hi => copyFile_manifest hi))
              · exact h0.trans tally_addReader
        · exact h0.trans tally_addReader
  | reader fs a data =>
    show Tally _ o (objAddReader w o fs a data).obj
    unfold objAddReader
    split
    · exact Tally.same rfl rfl
    · split
      · exact Tally.same rfl rfl
      · split
        · exact Tally.same rfl rfl
        · rename_i names mp hb
          obtain ⟨_, i, hi, hmp⟩ := buildNames_ok hb
          have ht : targets w o.inv [.reader fs a data] = [mp] := by
            simp only [targets, callsUses, Call.uses, targetOf, List.flatMap_cons, List.flatMap_nil, List.append_nil,
              List.filterMap_cons, List.filterMap_nil, hi, hmp]
          rw [ht]
          exact tally_addReader
  | delete p d => exact tally_ifExists (fun i j h => deleteFile_manifest h)
  | rename a b d => exact tally_ifExists (fun i j h => renameFile_manifest h)
  | beginArea => exact Tally.same rfl rfl
  | endArea =>
    unfold runCall
    exact tally_andThen (T1 := []) tally_echo (Tally.same rfl rfl)
  | ext n d =>
    refine ⟨fun p hp => Or.inl hp, fun p hp => ?_⟩
    show (creates (o.trace ++ writeFile (extPath n) d)).count p ≤ _
    rw [creates_append, List.count_append]
    have : (creates (writeFile (extPath n) d)).count p = 0 := by
      show [extPath n].count p = 0
      rw [List.count_eq_zero]
      intro hc
      have : p = extPath n := by simpa using hc
      rw [this] at hp
      exact hp.2 (topOf_append (a := "extensions".toList) (by decide) n)
    omega

theorem targets_congr {w : World} {a b : Inv} (h : HeadOnly a b) (cs : List Call) : targets w b cs = targets w a cs := by
  unfold targets
  refine List.filterMap_congr (fun x _ => ?_)
  unfold targetOf
  cases w.manifestPath x.1 x.2 with
  | error e => rfl
  | ok i => simp only [buildManifestName_congr h]

theorem targets_append {w : World} {a : Inv} (cs cs' : List Call) :
    targets w a (cs ++ cs') = targets w a cs ++ targets w a cs' := by
  simp [targets, callsUses, List.filterMap_append]

theorem tally_calls {w : World} {o : Obj} (cs : List Call) : Tally (targets w o.inv cs) o (runCalls w o cs).obj := by
  induction cs generalizing o with
  | nil => exact Tally.same rfl rfl
  | cons c cs ih =>
    unfold runCalls
    rw [show c :: cs = [c] ++ cs from rfl, targets_append]
    refine tally_andThen (tally_call c) ?_
    have := ih (o := (runCall w o c).obj)
    rw [targets_congr (runCall_step (w := w) (U := fun _ _ => True) (o := o) c (fun _ _ => trivial)).headOnly] at this
    exact this

/-- `o'` comes from `o` by calls `cs` (and storing) -/
structure Counts (w : World) (cs : List Call) (o o' : Obj) : Prop where
  head : HeadOnly o.inv o'.inv
  tally : Tally (targets w o.inv cs) o o'

theorem Counts.trans {w : World} {cs cs' : List Call} {a b c : Obj} (h : Counts w cs a b) (h' : Counts w cs' b c) :
    Counts w (cs ++ cs') a c :=
  ⟨h.head.trans h'.head, by rw [targets_append, ← targets_congr h.head cs']; exact h.tally.trans h'.tally⟩

theorem counts_andThen {w : World} {cs cs' : List Call} {a : Obj} {x : Out} {f : Obj → Out} (h : Counts w cs a x.obj)
    (hf : Counts w cs' x.obj (f x.obj).obj) : Counts w (cs ++ cs') a (x.andThen f).obj := by
  cases he : x.err with
  | none => rw [andThen_none he]; exact h.trans hf
  | some e => rw [andThen_some he]; exact h.trans ⟨HeadOnly.refl _, Tally.same rfl rfl⟩

theorem counts_calls {w : World} {o : Obj} (cs : List Call) : Counts w cs o (runCalls w o cs).obj :=
  ⟨(runCalls_step (w := w) (U := fun _ _ => True) cs (fun _ _ _ _ => trivial)).headOnly, tally_calls cs⟩

theorem counts_echo {w : World} {o : Obj} : Counts w [] o (if o.echo then objEcho w o else ok o).obj :=
  ⟨(echoIf_step (w := w) (U := fun _ _ => True)).headOnly, tally_echo⟩

theorem tally_writes {T : List Str} {o : Obj} {t : List FsOp} (h : ∀ p ∈ creates t, ¬ Plain p) :
    Tally T o (o.write t) where
  man p hp := Or.inl hp
  cnt p hp := by
    show (creates (o.trace ++ t)).count p ≤ _
    rw [creates_append, List.count_append]
    have : (creates t).count p = 0 := List.count_eq_zero.2 (fun hc => h p hc hp)
    omega

theorem counts_store {w : World} {o : Obj} (hh : '/' ∉ o.inv.head) (ha : '/' ∉ o.inv.digestAlg) (v r : Bool) :
    Counts w [] o (storeInventory w o v r).obj := by
  have c0 : ∀ s : Str, '/' ∉ s → s.count '/' = 0 := fun s hs => List.count_eq_zero.2 hs
  unfold storeInventory
  split
  · exact ⟨HeadOnly.refl _, Tally.same rfl rfl⟩
  · split
    · exact ⟨HeadOnly.refl _, Tally.same rfl rfl⟩
    · rename_i f hf
      refine ⟨HeadOnly.refl _, ?_⟩
      refine tally_writes (fun p hp => ?_)
      rintro ⟨h2, _⟩
      rw [creates_append] at hp
      have hp : p ∈ [rootInvPath, rootSidecarPath o.inv.digestAlg, verInvPath o.inv.head,
          verSidecarPath o.inv.head o.inv.digestAlg] := by
        cases r <;> cases v <;> simp [creates, writeFile] at hp ⊢ <;> tauto
      have r1 : List.count '/' rootInvPath = 0 := by decide
      have r2 : List.count '/' (rootSidecarPath o.inv.digestAlg) = 0 := by
        unfold rootSidecarPath; rw [List.count_append, c0 _ ha]; decide
      have r3 : List.count '/' (verInvPath o.inv.head) = 1 := by
        unfold verInvPath; rw [List.count_append, c0 _ hh]; decide
      have r4 : List.count '/' (verSidecarPath o.inv.head o.inv.digestAlg) = 1 := by
        unfold verSidecarPath; rw [List.count_append, List.count_append, c0 _ hh, c0 _ ha]; decide
      simp only [List.mem_cons, List.not_mem_nil, or_false] at hp
      rcases hp with rfl | rfl | rfl | rfl <;> omega

theorem counts_end {w : World} {o : Obj} (hh : '/' ∉ o.inv.head) (ha : '/' ∉ o.inv.digestAlg) (after : List Call) :
    Counts w after o (endUpdate w o after []).obj := by
  unfold endUpdate
  split
  · exact ⟨HeadOnly.refl _, Tally.same rfl rfl⟩
  · split
    · exact ⟨HeadOnly.refl _, Tally.same rfl rfl⟩
    · rename_i hm
      have h0 := counts_echo (w := w) (o := o)
      have hm0 := (echoIf_step (w := w) (U := fun _ _ => True) (o := o)).modified (not_false_iff hm)
      generalize (if o.echo then objEcho w o else ok o) = x at h0 hm0
      refine counts_andThen (cs := []) h0 ?_
      have h1 := counts_calls (w := w) (o := x.obj) after
      have hm1 := (runCalls_step (w := w) (U := fun _ _ => True) (o := x.obj) after (fun _ _ _ _ => trivial)).modified hm0
      have hH := h0.head.trans h1.head
      generalize runCalls w x.obj after = y at h1 hm1 hH
      rw [show after = after ++ [] by simp]
      refine counts_andThen h1 ?_
      rw [clean_modified hm1, show withInv y.obj (Except.ok y.obj.inv) = ok y.obj from rfl, andThen_ok]
      exact counts_store (by rw [hH.head]; exact hh) (by rw [hH.alg]; exact ha) _ _

theorem counts_close {w : World} {o : Obj} (hh : '/' ∉ o.inv.head) (ha : '/' ∉ o.inv.digestAlg)
    (exts : List (Str × Bytes)) : Counts w [] o (closeObj w o exts).obj := by
  unfold closeObj
  split
  · exact ⟨HeadOnly.refl _, Tally.same rfl rfl⟩
  · split
    · exact ⟨HeadOnly.refl _, Tally.same rfl rfl⟩
    · rename_i hm
      rw [clean_modified (not_false_iff hm), show withInv o (Except.ok o.inv) = ok o from rfl, andThen_ok]
      refine counts_andThen (cs := []) (counts_store hh ha _ _) ⟨HeadOnly.refl _, ?_⟩
      refine tally_writes (fun p hp => ?_)
      rintro ⟨_, h2⟩
      unfold creates at hp
      rw [List.mem_filterMap] at hp
      obtain ⟨op, hop, hp⟩ := hp
      obtain ⟨e, _, hop⟩ := List.mem_flatMap.1 hop
      simp only [writeFile, List.mem_cons, List.not_mem_nil, or_false] at hop
      rcases hop with rfl | rfl
      · cases hp
        exact h2 (topOf_append (a := "extensions".toList) (by decide) _)
      · cases hp

/-- a content path of a safe name is plain -/
theorem plain_content {inv : Inv} {k : Nat} (hc : ValidComp inv.contentDir)
    (hh : inv.head = verName inv.paddingLength k) {i : Str} (hi : InsideName i) : Plain (buildManifestName inv i) := by
  obtain ⟨j, hj⟩ := hi
  obtain ⟨cs, h1, h2, h3⟩ := C13_content_path_inside_partial (inv := inv) (by rw [hh]; exact verName_valid _ _) hc hj
  rw [h3]
  refine ⟨?_, ?_⟩
  · rw [joinWith_cons (by simp), joinWith_cons h1, List.count_append, List.count_cons_self, List.count_append,
      List.count_cons_self]
    omega
  · rw [topOf_joinWith (by rw [hh]; exact verName_noSlash _ _) (by simp), hh]
    intro hx
    have := congrArg List.head? hx
    rw [verName_head] at this
    exact absurd this (by decide)

/-- With safe names no file of an earlier version is written in a session. -/
theorem session_not_old {w : World} {inv : Inv} {n : Nat} {s : Session} (hwf : WF inv n) (hc : ValidComp inv.contentDir)
    (hs : SafeNames w s) {op : FsOp} (hop : op ∈ (session w inv s).obj.trace) : ¬ VersionFile inv n op.path := by
  have htop : ∀ {p : Str}, VersionFile inv n p → (topOf p).head? = some 'v' := by
    rintro p ⟨k, _, _, rest, rfl⟩
    rw [topOf_append (verName_noSlash _ _), verName_head]
  have hnew : ∀ op ∈ (sessionOpen w inv s).obj.trace, ¬ VersionFile inv n op.path := fun op hop hv =>
    newPath_ne_old hc (fun p a i hu hi => hs (p, a) hu i hi) (sessionOpen_trace hwf s op hop) (Or.inr (Or.inr hv)) rfl
  unfold session at hop
  cases he : (sessionOpen w inv s).err with
  | some e => rw [andThen_some he] at hop; exact hnew op hop
  | none =>
    rw [andThen_none he] at hop
    rcases closeObj_cases w (sessionOpen w inv s).obj s.exts with ⟨h1, _⟩ | ⟨_, _, _, h1, _⟩ | ⟨_, _, f, _, h1⟩
    · rw [h1] at hop; exact hnew op hop
    · rw [h1] at hop; exact hnew op hop
    · rw [h1] at hop
      rcases List.mem_append.1 hop with hop | hop
      · exact hnew op hop
      · intro hv
        have ht := htop hv
        have hroot : ∀ {p : Str}, p.head? = some 'i' → (topOf p).head? = some 'i' :=
          fun hp => topOf_head hp (by decide) rfl
        rcases List.mem_append.1 hop with hop | hop
        · simp only [rootWrites, writeFile, List.cons_append, List.nil_append, List.mem_cons, List.not_mem_nil,
            or_false] at hop
          have : (topOf op.path).head? = some 'i' := by
            rcases hop with rfl | rfl | rfl | rfl <;> exact hroot rfl
          rw [this] at ht
          exact absurd ht (by decide)
        · obtain ⟨e, _, hop⟩ := List.mem_flatMap.1 hop
          simp only [writeFile, List.mem_cons, List.not_mem_nil, or_false] at hop
          have : op.path = extPath e.1 := by rcases hop with rfl | rfl <;> rfl
          rw [this, show topOf (extPath e.1) = "extensions".toList from
            topOf_append (a := "extensions".toList) (by decide) _] at ht
          exact absurd ht (by decide)

theorem creates_path {t : List FsOp} {p : Str} (h : p ∈ creates t) : ∃ op ∈ t, op.path = p := by
  unfold creates at h
  obtain ⟨op, hop, hp⟩ := List.mem_filterMap.1 h
  refine ⟨op, hop, ?_⟩
  cases op <;> cases hp
  rfl

/-- With distinct and safe names every content file is written once at most, and the old ones not at all. -/
theorem session_once {w : World} {inv : Inv} {n : Nat} {s : Session}
    (hwf : WF inv n) (hc : ValidComp inv.contentDir) (ha : '/' ∉ inv.digestAlg)
    (hold : ∀ d m p, (d, m) ∈ inv.manifest → p ∈ m → VersionFile inv n p)
    (hs : SafeNames w s) (hr : s.rounds = [])
    (hnd : (targets w { inv with head := verName inv.paddingLength ((n + 1 : Nat) : Int) }
      (s.before ++ s.body ++ s.after)).Nodup) :
    (∀ p, Listed inv p → p ∉ creates (session w inv s).obj.trace) ∧
    ∀ d m p, (d, m) ∈ (session w inv s).obj.inv.manifest → p ∈ m →
      (creates (session w inv s).obj.trace).count p ≤ 1 := by
  have hold' : ∀ p, Listed inv p → p ∉ creates (session w inv s).obj.trace := by
    rintro p ⟨d, m, hd, hp⟩ hx
    obtain ⟨op, hop, rfl⟩ := creates_path hx
    exact session_not_old hwf hc hs hop (hold d m _ hd hp)
  refine ⟨hold', ?_⟩
  intro d m p hd hp
  cases hv : newVersion inv s.info.msg s.info.userName s.info.userAddress s.info.now with
  | error e =>
    have : (session w inv s).obj.trace = [] := by
      unfold session sessionOpen startUpdate
      simp only [hv]
      rfl
    rw [this]; simp [creates]
  | ok i =>
    have hfr := newVersion_frame hv
    have hhead : i.head = verName inv.paddingLength ((n + 1 : Nat) : Int) := by
      have := (newVersion_ok_gapFree hwf.1 hwf.2 hv).1.2
      rw [if_neg (Nat.succ_ne_zero n), hfr.2.1] at this
      exact this
    have hsl : '/' ∉ i.head := by rw [hhead]; exact verName_noSlash _ _
    have hsa : '/' ∉ i.digestAlg := by rw [hfr.2.2.1]; exact ha
    have hcnt : Counts w ((s.before ++ (s.body ++ s.after)) ++ []) ⟨i, [], s.echo, []⟩ (session w inv s).obj := by
      unfold session sessionOpen startUpdate
      simp only [hv, hr]
      rw [show withInv (⟨inv, [], s.echo, []⟩ : Obj) (Except.ok i) = ok ⟨i, [], s.echo, []⟩ from rfl, andThen_ok]
      have h1 : Counts w (s.before ++ (s.body ++ s.after)) ⟨i, [], s.echo, []⟩
          ((runCalls w ⟨i, [], s.echo, []⟩ s.before).andThen fun o =>
            (runCalls w o s.body).andThen fun o => endUpdate w o s.after []).obj := by
        have hb := counts_calls (w := w) (o := ⟨i, [], s.echo, []⟩) s.before
        refine counts_andThen hb ?_
        have hy := counts_calls (w := w) (o := (runCalls w ⟨i, [], s.echo, []⟩ s.before).obj) s.body
        refine counts_andThen hy (counts_end ?_ ?_ _)
        · rw [hy.head.head, hb.head.head]; exact hsl
        · rw [hy.head.alg, hb.head.alg]; exact hsa
      refine counts_andThen h1 (counts_close ?_ ?_ _)
      · rw [h1.head.head]; exact hsl
      · rw [h1.head.alg]; exact hsa
    have hT : targets w i ((s.before ++ (s.body ++ s.after)) ++ []) =
        targets w { inv with head := verName inv.paddingLength ((n + 1 : Nat) : Int) } (s.before ++ s.body ++ s.after) := by
      rw [List.append_nil, ← List.append_assoc]
      unfold targets
      refine List.filterMap_congr (fun x _ => ?_)
      unfold targetOf buildManifestName buildManifestNameVersion Inv.contentDir
      rw [hhead, hfr.1]
    rcases hcnt.tally.man p ⟨d, m, hd, hp⟩ with ⟨d', m', hd', hp'⟩ | hx
    · have := hold' p ⟨d', m', by rw [← hfr.2.2.2.2.2.1]; exact hd', hp'⟩
      rw [List.count_eq_zero.2 this]; omega
    · have hpl : Plain p := by
        obtain ⟨x, hxu, hpx⟩ := List.mem_filterMap.1 hx
        unfold targetOf at hpx
        cases hi : w.manifestPath x.1 x.2 with
        | error e => rw [hi] at hpx; cases hpx
        | ok j =>
          rw [hi] at hpx; cases hpx
          refine plain_content (k := n + 1) ?_ ?_ (hs x ?_ j hi)
          · have : i.contentDir = inv.contentDir := by unfold Inv.contentDir; rw [hfr.1]
            rw [this]; exact hc
          · rw [hfr.2.1]; exact hhead
          · simp only [callsUses, List.append_nil, List.flatMap_append, List.mem_append] at hxu
            simp only [Session.uses, callsUses, List.mem_append]
            tauto
      have h1 := hcnt.tally.cnt p hpl
      rw [hT] at h1
      have h2 : (targets w { inv with head := verName inv.paddingLength ((n + 1 : Nat) : Int) }
        (s.before ++ s.body ++ s.after)).count p ≤ 1 := List.nodup_iff_count_le_one.1 hnd p
      have h3 : (creates (⟨i, [], s.echo, []⟩ : Obj).trace).count p = 0 := rfl
      omega

/-- **C25, in terms of the names added.**  If no two additions of a session (without follow-up versions) build the
same content path, then after the session every content file listed in the manifest is there and has its digest,
provided that held before. -/
theorem C25_distinct_names_partial {w : World} {inv : Inv} {n : Nat} {s : Session} {fs : FS} {h : Bytes → Str}
    (hwf : WF inv n) (hc : ValidComp inv.contentDir) (hh : w.hash inv.digestAlg = some h) (ha : '/' ∉ inv.digestAlg)
    (hok : ContentOk h inv fs) (hold : ∀ d m p, (d, m) ∈ inv.manifest → p ∈ m → VersionFile inv n p)
    (hs : SafeNames w s) (hr : s.rounds = [])
    (hnd : (targets w { inv with head := verName inv.paddingLength ((n + 1 : Nat) : Int) }
      (s.before ++ s.body ++ s.after)).Nodup) :
    ContentOk h (session w inv s).obj.inv (applyOps fs (session w inv s).obj.trace) := by
  have hx := session_once hwf hc ha hold hs hr hnd
  exact C25_content_matches_partial hh hok (fun d m p hd hp => hx.1 p ⟨d, m, hd, hp⟩) hx.2

/-! Examples: the file added twice with different content -/

/-- contents `1`, `2`, `3`, `4` have digests `d1` … `d4` -/
def exHash4 (b : Bytes) : Str :=
  if b = [1] then "d1".toList else if b = [2] then "d2".toList else if b = [3] then "d3".toList else "d4".toList

def exWorld4 : World :=
  { exWorld with hash := fun a => if a = "sha512".toList then some exHash4 else none }

def exDisk4 : FS := [("v1/content/a".toList, [1]), ("v2/content/b".toList, [2])]

def exTwice (n1 n2 : Str) : Session :=
  { exSession [] with body := [.add n1 [] [3] true, .add n2 [] [4] true] }

theorem exWorld4_hash : exWorld4.hash exInv.digestAlg = some exHash4 :=
  (if_pos rfl : (if exInv.digestAlg = "sha512".toList then some exHash4 else none) = some exHash4)

theorem exDisk4_ok : ContentOk exHash4 exInv exDisk4 := by
  intro d m p hd hp
  have hm : (d, m) ∈ [("d1".toList, ["v1/content/a".toList]), ("d2".toList, ["v2/content/b".toList])] := hd
  simp only [List.mem_cons, List.not_mem_nil, or_false, Prod.mk.injEq] at hm
  rcases hm with ⟨rfl, rfl⟩ | ⟨rfl, rfl⟩
  · rw [List.mem_singleton] at hp; subst hp; exact ⟨[1], by decide, by decide⟩
  · rw [List.mem_singleton] at hp; subst hp; exact ⟨[2], by decide, by decide⟩

theorem exInv_versionFiles : ∀ d m p, (d, m) ∈ exInv.manifest → p ∈ m → VersionFile exInv 2 p := by
  intro d m p hd hp
  have hm : (d, m) ∈ [("d1".toList, ["v1/content/a".toList]), ("d2".toList, ["v2/content/b".toList])] := hd
  simp only [List.mem_cons, List.not_mem_nil, or_false, Prod.mk.injEq] at hm
  rcases hm with ⟨rfl, rfl⟩ | ⟨rfl, rfl⟩
  · rw [List.mem_singleton] at hp; subst hp; exact ⟨1, by omega, by omega, "content/a".toList, by decide⟩
  · rw [List.mem_singleton] at hp; subst hp; exact ⟨2, by omega, by omega, "content/b".toList, by decide⟩

theorem exTwice_safe {n1 n2 : Str} (h1 : InsideName n1) (h2 : InsideName n2) : SafeNames exWorld4 (exTwice n1 n2) := by
  intro x hx i hi
  have hx : x ∈ [(n1, []), (n2, [])] := hx
  have hi : (Except.ok x.1 : Res Str) = .ok i := hi
  cases hi
  simp only [List.mem_cons, List.not_mem_nil, or_false] at hx
  rcases hx with rfl | rfl
  · exact h1
  · exact h2

example : ContentOk exHash4 (session exWorld4 exInv (exTwice "c".toList "e".toList)).obj.inv
    (applyOps exDisk4 (session exWorld4 exInv (exTwice "c".toList "e".toList)).obj.trace) :=
  C25_distinct_names_partial exInv_wf2 exInv_contentDir exWorld4_hash (by decide) exDisk4_ok exInv_versionFiles
    (exTwice_safe ⟨0, by decide⟩ ⟨0, by decide⟩) rfl (by decide)

/-- One file name added twice in a session with different content: the second content replaces the file of the
first, whose digest stays in the manifest. -/
theorem C25_full_fails : ¬ C25_full := by
  intro hf
  have h := hf exWorld4 exInv 2 (exTwice "c".toList "c".toList) exDisk4 exHash4 exInv_wf2 exInv_contentDir
    exWorld4_hash exDisk4_ok exInv_versionFiles (exTwice_safe ⟨0, by decide⟩ ⟨0, by decide⟩) (by decide)
  have hm : mget (session exWorld4 exInv (exTwice "c".toList "c".toList)).obj.inv.manifest "d3".toList =
    some ["v3/content/c".toList] := by decide
  obtain ⟨b, h1, h2⟩ := h "d3".toList ["v3/content/c".toList] "v3/content/c".toList (mem_of_mget hm) (by simp)
  have h3 : mget (applyOps exDisk4 (session exWorld4 exInv (exTwice "c".toList "c".toList)).obj.trace)
    "v3/content/c".toList = some [4] := by decide
  rw [h3] at h1
  cases h1
  exact absurd h2 (by decide)

end Gocfl
