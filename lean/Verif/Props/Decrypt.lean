import Verif.Model.Decrypt
import Verif.Props.Crash

/-!
# C167: decrypting a container

What the tool writes is what was encrypted; what it leaves when it fails.
-/

namespace Gocfl

/-- the segments `data`, sealed from number `i` on -/
def sealSegs (s : Nat → Bool → Bytes → Bytes) : Nat → List Bytes → List Bytes
  | _, [] => []
  | i, [p] => [s i true p]
  | i, p :: q :: ps => s i false p :: sealSegs s (i + 1) (q :: ps)

/-- Nothing can be opened but what has been sealed: the segments `data`, each with its number, the last one as the last. -/
def Authentic (f : OpenSeg) (data : List Bytes) : Prop :=
  ∀ i l c p, f i l c = some p → data[i]? = some p ∧ (l = true → i + 1 = data.length)

/-- the tool can read the key file and open the key in it -/
structure KeyOpens (w : DecryptWorld) (fs : FS) (input : Str) (key aad : Bytes) : Prop where
  opens : ∃ kd k unwrap, mget fs (keyFileName input) = some kd ∧ w.keyFile kd = some k ∧ w.master = some unwrap ∧
    unwrap k.encryptedKey = some key ∧ k.aad = aad

/-! ## Lemmas -/

theorem copySegs_prefix {f : OpenSeg} {data : List Bytes} (ha : Authentic f data) {cs : List Bytes} {i : Nat} :
    (copySegs f i cs).1 <+: data.drop i ∧ ((copySegs f i cs).2 = true → (copySegs f i cs).1 = data.drop i) := by
  induction cs generalizing i with
  | nil => exact ⟨List.nil_prefix, fun h => by cases h⟩
  | cons c cs ih =>
    cases cs with
    | nil =>
      unfold copySegs
      cases hf : f i true c with
      | none => exact ⟨List.nil_prefix, fun h => by cases h⟩
      | some p =>
        obtain ⟨h1, h2⟩ := ha _ _ _ _ hf
        obtain ⟨hl, h1⟩ := List.getElem?_eq_some_iff.1 h1
        have : data.drop i = [p] := by
          rw [List.drop_eq_getElem_cons hl, h1, List.drop_eq_nil_of_le (by have := h2 rfl; omega)]
        simp only
        rw [this]
        exact ⟨List.prefix_refl _, fun _ => rfl⟩
    | cons d cs =>
      unfold copySegs
      cases hf : f i false c with
      | none => exact ⟨List.nil_prefix, fun h => by cases h⟩
      | some p =>
        obtain ⟨h1, _⟩ := ha _ _ _ _ hf
        obtain ⟨hl, h1⟩ := List.getElem?_eq_some_iff.1 h1
        simp only
        rw [List.drop_eq_getElem_cons hl, h1]
        obtain ⟨i1, i2⟩ := ih (i := i + 1)
        exact ⟨(List.prefix_cons_inj p).2 i1, fun h => by rw [i2 h]⟩

theorem copySegs_seal {f : OpenSeg} {s : Nat → Bool → Bytes → Bytes} (hf : ∀ i l p, f i l (s i l p) = some p) {data : List Bytes}
    (hd : data ≠ []) (i : Nat) : copySegs f i (sealSegs s i data) = (data, true) := by
  induction data generalizing i with
  | nil => exact absurd rfl hd
  | cons p ps ih =>
    cases ps with
    | nil => simp only [sealSegs, copySegs, hf]
    | cons q ps =>
      have := ih (by simp) (i + 1)
      have hne : ∃ d cs, sealSegs s (i + 1) (q :: ps) = d :: cs := by
        cases ps with
        | nil => exact ⟨_, _, rfl⟩
        | cons r ps => exact ⟨_, _, rfl⟩
      obtain ⟨d, cs, he⟩ := hne
      rw [he] at this
      show copySegs f i (s i false p :: sealSegs s (i + 1) (q :: ps)) = _
      rw [he]
      unfold copySegs
      simp only [hf, this]

theorem mget_appends (fs : FS) (x : Str) (l : List Bytes) (b : Bytes) (h : mget fs x = some b) :
    mget (applyOps fs (l.map (FsOp.append x))) x = some (b ++ l.flatten) := by
  induction l generalizing fs b with
  | nil => simpa [applyOps] using h
  | cons p l ih =>
    show mget (applyOps ((FsOp.append x p).apply fs) (l.map (FsOp.append x))) x = _
    rw [ih _ (b ++ p) (by simp [FsOp.apply, h]), List.flatten_cons, List.append_assoc]

theorem mget_createdFile (fs : FS) (x : Str) (l : List Bytes) :
    mget (applyOps fs ([.create x] ++ l.map (FsOp.append x))) x = some l.flatten := by
  rw [applyOps_append]
  rw [mget_appends _ x l [] (by simp [applyOps, FsOp.apply])]
  simp

theorem decryptMain_opened {w : DecryptWorld} {fs : FS} {input output : Str} {key aad : Bytes} (hk : KeyOpens w fs input key aad)
    {enc : Bytes} (he : mget fs input = some enc) : decryptMain w fs input output = decryptOpened w fs input output key aad := by
  obtain ⟨kd, k, unwrap, h1, h2, h3, h4, rfl⟩ := hk.opens
  unfold decryptMain
  simp only [h1, h2, h3, h4, he]

/-- the trace of the tool is about the output file -/
theorem decryptMain_trace {w : DecryptWorld} {fs : FS} {input output : Str} :
    ∀ op ∈ (decryptMain w fs input output).trace, op.path = output := by
  have hcopy : ∀ key aad before enc, (∀ op ∈ before, FsOp.path op = output) →
      ∀ op ∈ (decryptCopy w key aad output before enc).trace, op.path = output := by
    intro key aad before enc hb op hop
    unfold decryptCopy at hop
    split at hop
    · exact hb op hop
    · simp only at hop
      split at hop
      · exact hb op hop
      · rcases List.mem_append.1 hop with hop | hop
        · exact hb op hop
        · obtain ⟨p, _, rfl⟩ := List.mem_map.1 hop
          rfl
  intro op hop
  unfold decryptMain at hop
  split at hop
  · cases hop
  · split at hop
    · cases hop
    · split at hop
      · cases hop
      · split at hop
        · cases hop
        · split at hop
          · cases hop
          · unfold decryptOpened at hop
            split at hop
            · exact hcopy _ _ _ _ (fun op h => by cases h) op hop
            · exact hcopy _ _ _ _ (fun op h => by rw [List.mem_singleton.1 h]; rfl) op hop

/-! ## C167 -/

/-- **C167, what was encrypted comes out.** A container laid out as header and sealed segments, its key file beside it, is
decrypted: the output file holds the data, all other files are as before. -/
theorem C167_roundtrip {w : DecryptWorld} {fs : FS} {input output : Str} {key aad enc header : Bytes} {data : List Bytes}
    {s : Nat → Bool → Bytes → Bytes} (hk : KeyOpens w fs input key aad) (he : mget fs input = some enc)
    (hl : w.layout enc = some (header, sealSegs s 0 data)) (hd : data ≠ [])
    (hs : ∀ i l p, w.cipher key aad header i l (s i l p) = some p) (ho : output ≠ []) (hne : output ≠ input) :
    (decryptMain w fs input output).err = none ∧
    mget (applyOps fs (decryptMain w fs input output).trace) output = some data.flatten ∧
    ∀ x, x ≠ output → mget (applyOps fs (decryptMain w fs input output).trace) x = mget fs x := by
  refine ⟨?_, ?_, fun x hx => mget_applyOps_ne (fun op hop e => hx (e ▸ decryptMain_trace op hop))⟩
  all_goals
    rw [decryptMain_opened hk he]
    unfold decryptOpened
    rw [if_neg ho]
    have hin : mget (applyOps fs [.create output]) input = some enc := by
      rw [mget_applyOps_ne (fun op hop e => hne (by rw [List.mem_singleton.1 hop] at e; exact e)), he]
    rw [hin]
    unfold decryptCopy
    simp only [Option.getD_some, hl, copySegs_seal hs hd, if_neg ho, if_true]
  exact mget_createdFile _ _ _

/-- the same, to standard output -/
theorem C167_roundtrip_stdout {w : DecryptWorld} {fs : FS} {input : Str} {key aad enc header : Bytes} {data : List Bytes}
    {s : Nat → Bool → Bytes → Bytes} (hk : KeyOpens w fs input key aad) (he : mget fs input = some enc)
    (hl : w.layout enc = some (header, sealSegs s 0 data)) (hd : data ≠ [])
    (hs : ∀ i l p, w.cipher key aad header i l (s i l p) = some p) :
    decryptMain w fs input [] = ⟨[], data.flatten, none⟩ := by
  rw [decryptMain_opened hk he]
  unfold decryptOpened
  rw [if_pos rfl, he]
  unfold decryptCopy
  simp only [Option.getD_some, hl, copySegs_seal hs hd, if_true]

/-- **C167, nothing else comes out.** If only what was sealed can be opened, then whatever the container has become — cut,
damaged, mixed up — the tool puts out the beginning of the data, and reports success only if it is all of it. -/
theorem C167_authentic {w : DecryptWorld} {fs : FS} {input output : Str} {key aad : Bytes} {data : List Bytes}
    (hk : KeyOpens w fs input key aad) (ha : ∀ header, Authentic (w.cipher key aad header) data) :
    (decryptMain w fs input output).stdout <+: data.flatten ∧
    ((decryptMain w fs input output).trace ≠ [] →
      ∃ c, mget (applyOps fs (decryptMain w fs input output).trace) output = some c ∧ c <+: data.flatten ∧
        ((decryptMain w fs input output).err = none → c = data.flatten)) ∧
    ((decryptMain w fs input output).err = none → output = [] → (decryptMain w fs input output).stdout = data.flatten) := by
  have hpre : ∀ l : List Bytes, l <+: data → l.flatten <+: data.flatten := by
    rintro l ⟨t, rfl⟩
    exact ⟨t.flatten, by rw [List.flatten_append]⟩
  cases he : mget fs input with
  | none =>
    obtain ⟨kd, k, unwrap, h1, h2, h3, h4, rfl⟩ := hk.opens
    have : decryptMain w fs input output = ⟨[], [], some (.error "cannot open file")⟩ := by
      unfold decryptMain
      simp only [h1, h2, h3, h4, he]
    rw [this]
    exact ⟨List.nil_prefix, fun h => absurd rfl h, fun h => by cases h⟩
  | some enc =>
    rw [decryptMain_opened hk he]
    unfold decryptOpened
    by_cases ho : output = []
    · rw [if_pos ho]
      unfold decryptCopy
      split
      · exact ⟨List.nil_prefix, fun h => absurd rfl h, fun h => by cases h⟩
      · rename_i header segs _
        obtain ⟨h1, h2⟩ := copySegs_prefix (ha header) (cs := segs) (i := 0)
        rw [List.drop_zero] at h1 h2
        simp only [if_pos ho]
        refine ⟨hpre _ h1, fun h => absurd rfl h, fun h _ => ?_⟩
        split at h
        · rename_i ht; rw [h2 ht]
        · cases h
    · rw [if_neg ho]
      unfold decryptCopy
      split
      · refine ⟨List.nil_prefix, fun _ => ⟨[], ?_, List.nil_prefix, fun h => by cases h⟩, fun h => by cases h⟩
        simpa using mget_createdFile fs output []
      · rename_i header segs _
        obtain ⟨h1, h2⟩ := copySegs_prefix (ha header) (cs := segs) (i := 0)
        rw [List.drop_zero] at h1 h2
        simp only [if_neg ho]
        refine ⟨List.nil_prefix, fun _ => ⟨_, mget_createdFile fs output _, hpre _ h1, fun h => ?_⟩, fun _ h => absurd h ho⟩
        split at h
        · rename_i ht; rw [h2 ht]
        · cases h

/-- **C167, full statement** (false): if the tool fails, no file has been changed. -/
def C167_full : Prop :=
  ∀ (w : DecryptWorld) (fs : FS) (input output : Str), (decryptMain w fs input output).err ≠ none →
    ∀ x, mget (applyOps fs (decryptMain w fs input output).trace) x = mget fs x

/-- **C167 (partial).** If the key cannot be had, or there is no container, no file is changed and nothing is put out. -/
theorem C167_no_key_partial {w : DecryptWorld} {fs : FS} {input output : Str}
    (h : (¬ ∃ key aad, KeyOpens w fs input key aad) ∨ mget fs input = none) :
    (decryptMain w fs input output).trace = [] ∧ (decryptMain w fs input output).stdout = [] ∧
    (decryptMain w fs input output).err ≠ none := by
  unfold decryptMain
  split
  · exact ⟨rfl, rfl, nofun⟩
  · rename_i kd h1
    split
    · exact ⟨rfl, rfl, nofun⟩
    · rename_i k h2
      split
      · exact ⟨rfl, rfl, nofun⟩
      · rename_i unwrap h3
        split
        · exact ⟨rfl, rfl, nofun⟩
        · rename_i key h4
          split
          · exact ⟨rfl, rfl, nofun⟩
          · rename_i enc h5
            rcases h with h | h
            · exact absurd ⟨key, k.aad, ⟨kd, k, unwrap, h1, h2, h3, h4, rfl⟩⟩ h
            · rw [h] at h5; cases h5

/-- If the container is named as the output too, it is gone: the tool fails and leaves an empty file. -/
theorem C167_same_file {w : DecryptWorld} {fs : FS} {input : Str} {key aad enc : Bytes} (hk : KeyOpens w fs input key aad)
    (he : mget fs input = some enc) (hi : input ≠ []) (hl : w.layout [] = none) :
    (decryptMain w fs input input).err ≠ none ∧ mget (applyOps fs (decryptMain w fs input input).trace) input = some [] := by
  rw [decryptMain_opened hk he]
  unfold decryptOpened
  rw [if_neg hi]
  have : mget (applyOps fs [.create input]) input = some [] := by simpa using mget_createdFile fs input []
  rw [this]
  unfold decryptCopy
  simp only [Option.getD_some, hl]
  exact ⟨nofun, by simpa using this⟩

/-! ## Cases -/

/-- The data `[[1, 2], [3]]`, a header of one byte, segments of three bytes, the first saying number and place. -/
def deData : List Bytes := [[1, 2], [3]]

def deSeal (i : Nat) (l : Bool) (p : Bytes) : Bytes := (i.toUInt8 * 2 + if l then 1 else 0) :: p

def deSplit : Bytes → List Bytes
  | a :: b :: c :: rest => [a, b, c] :: deSplit rest
  | [] => []
  | rest => [rest]

def deWorld : DecryptWorld where
  keyFile b := if b = [5] then some ⟨[6], [7]⟩ else none
  master := some (fun k => if k = [6] then some [8] else none)
  layout
    | [] => none
    | h :: rest => some ([h], deSplit rest)
  cipher _ _ _ i l c := (deData[i]?).bind (fun p => if c = deSeal i l p ∧ l = decide (i + 1 = deData.length) then some p else none)

def deFs : FS := [("c.aes".toList, [9, 0, 1, 2, 3, 3]), ("c.aes.key.json".toList, [5]), ("c.zip".toList, [4, 4])]

def deCut : FS := [("c.aes".toList, [9, 0, 1, 2, 3]), ("c.aes.key.json".toList, [5]), ("c.zip".toList, [4, 4])]

theorem de_opens : KeyOpens deWorld deFs "c.aes".toList [8] [7] :=
  ⟨[5], ⟨[6], [7]⟩, fun k => if k = [6] then some [8] else none, by decide, by decide, rfl, by decide, rfl⟩

theorem de_authentic (header : Bytes) : Authentic (deWorld.cipher [8] [7] header) deData := by
  intro i l c p h
  have h : (deData[i]?).bind (fun p => if c = deSeal i l p ∧ l = decide (i + 1 = deData.length) then some p else none) = some p := h
  cases hd : deData[i]? with
  | none => rw [hd] at h; cases h
  | some q =>
    rw [hd, Option.bind_some] at h
    split at h
    · rename_i hc
      cases h
      exact ⟨rfl, fun hl => by rw [hl] at hc; exact of_decide_eq_true hc.2.symm⟩
    · cases h

/-- the container is decrypted; of one that lost its last byte the first part comes out -/
example : (decryptMain deWorld deFs "c.aes".toList []).stdout = [1, 2, 3] ∧
    (decryptMain deWorld deCut "c.aes".toList []).stdout = [1, 2] ∧
    mget (applyOps deFs (decryptMain deWorld deFs "c.aes".toList "o".toList).trace) "o".toList = some [1, 2, 3] := by
  decide +kernel

/-- the cipher of `C167_roundtrip`: anything sealed is opened -/
def deOpen : OpenSeg := fun i l c =>
  match c with
  | [] => none
  | t :: p => if t = i.toUInt8 * 2 + (if l then 1 else 0) then some p else none

def deWorldAll : DecryptWorld := { deWorld with cipher := fun _ _ _ => deOpen }

example : mget (applyOps deFs (decryptMain deWorldAll deFs "c.aes".toList "o".toList).trace) "o".toList = some [1, 2, 3] :=
  (C167_roundtrip (w := deWorldAll) (s := deSeal) (data := deData) (header := [9]) (key := [8]) (aad := [7]) (enc := [9, 0, 1, 2, 3, 3])
    ⟨[5], ⟨[6], [7]⟩, fun k => if k = [6] then some [8] else none, by decide, by decide, rfl, by decide, rfl⟩
    (by decide) (by decide) (by decide) (fun i l p => by
      show (if _ then some p else none) = some p
      rw [if_pos rfl]) (by decide) (by decide)).2.1

/-- A container that has lost its last byte: the tool fails at the last segment, and the file `c.zip` — which was something
else before — holds the beginning of the data. -/
theorem C167_full_fails : ¬ C167_full := by
  intro hf
  have := hf deWorld deCut "c.aes".toList "c.zip".toList (by decide +kernel) "c.zip".toList
  exact absurd this (by decide +kernel)

example : (decryptMain deWorld deFs "c.aes".toList "c.aes".toList).err ≠ none :=
  (C167_same_file (enc := [9, 0, 1, 2, 3, 3]) de_opens (by decide) (by decide) rfl).1

example : ∃ c, mget (applyOps deFs (decryptMain deWorld deFs "c.aes".toList "o".toList).trace) "o".toList = some c ∧
    c <+: deData.flatten := by
  obtain ⟨c, h1, h2, _⟩ := (C167_authentic (output := "o".toList) de_opens de_authentic).2.1 (by decide +kernel)
  exact ⟨c, h1, h2⟩

end Gocfl
