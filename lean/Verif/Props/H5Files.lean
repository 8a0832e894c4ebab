import Verif.Model.H5Files
import Verif.Props.Stream
import Mathlib.Data.List.Forall2

/-!
# C131: what is recorded can be loaded again
-/

namespace Acoular

open Spec

variable {α β ν : Type}

/-- What a user expects of a file: all rows, converted, the sampling rate, and what is in the dictionary. -/
structure Spec.Recorded (f : Recording β ν) (rows : List β) (channels : ℕ) (freq : ν) (info : List (List Char × StoredVal ν)) : Prop where
  rows : f.rows = rows
  channels : f.channels = channels
  freq : f.freq = freq
  info : (f.info.elim [] entriesToDict) = info.map fun e => (e.1, MetaOut.node e.2)

/-- Keys that both libraries take as one name. -/
def Spec.PlainKey (lib : H5Lib) (k : List Char) : Prop :=
  k ≠ [] ∧ '/' ∉ k ∧ match lib with
    | .tables valid => valid k = true
    | .h5py => True

/-- What is stored for a value that can be stored. -/
def Spec.StoredAs : MetaVal ν → StoredVal ν → Prop
  | .str s, w => w = .bytes s ∧ ∀ c ∈ s, c.toNat < 128
  | .other v, w => w = .other v

private theorem store_ok {v : MetaVal ν} {w : StoredVal ν} (h : StoredAs v w) : v.store = .ok w := by
  cases v with
  | str s =>
    obtain ⟨rfl, h⟩ := h
    have : (s.all fun c => decide (c.toNat < 128)) = true := by simpa using h
    simp [MetaVal.store, this]
  | other v => simp only [StoredAs] at h; simp [MetaVal.store, h]

private theorem splitSlash_plain {k : List Char} (h : '/' ∉ k) : splitSlash k = [k] := by
  induction k with
  | nil => rfl
  | cons c cs ih =>
    have hc : c ≠ '/' := fun h' => h (by simp [h'])
    simp [splitSlash, hc, ih fun h' => h (List.mem_cons_of_mem _ h')]

private theorem lookup_none {k : List Char} {es : List (List Char × H5Node ν)} (h : k ∉ es.map Prod.fst) :
    lookupEntry k es = none := by
  induction es with
  | nil => rfl
  | cons e es ih =>
    simp only [List.map_cons, List.mem_cons, not_or] at h
    simp [lookupEntry, Ne.symm h.1, ih h.2]

private theorem createArray_plain {lib : H5Lib} {k : List Char} (hk : PlainKey lib k) {es : List (List Char × H5Node ν)}
    (h : k ∉ es.map Prod.fst) (w : StoredVal ν) : createArray lib es k w = .ok (es ++ [(k, .leaf w)]) := by
  obtain ⟨h0, h1, h2⟩ := hk
  cases lib with
  | tables valid => simp only at h2; simp [createArray, h2, insertPath, lookup_none h]
  | h5py =>
    have : keyPath k = [k] := by simp [keyPath, splitSlash_plain h1, h0]
    simp [createArray, this, insertPath, lookup_none h]

private theorem addEntries_plain (lib : H5Lib) (info : List (List Char × MetaVal ν)) (out : List (List Char × StoredVal ν))
    (h : List.Forall₂ (fun a b => b.1 = a.1 ∧ StoredAs a.2 b.2) info out) (hk : ∀ e ∈ info, PlainKey lib e.1)
    (es : List (List Char × H5Node ν)) (hd : (es.map Prod.fst ++ info.map Prod.fst).Nodup) :
    addEntries lib info es = (es ++ out.map fun e => (e.1, .leaf e.2), none) := by
  induction h generalizing es with
  | nil => simp [addEntries]
  | @cons a b info out hab _ ih =>
    obtain ⟨k, v⟩ := a
    obtain ⟨k', w⟩ := b
    obtain ⟨rfl, hs⟩ := hab
    have hn : k' ∉ es.map Prod.fst := by
      intro hm
      rw [List.nodup_append] at hd
      exact hd.2.2 _ hm _ (by simp) rfl
    rw [addEntries, store_ok hs]
    simp only
    rw [createArray_plain (hk (k', v) (by simp)) hn w]
    simp only
    rw [ih (fun e he => hk e (List.mem_cons_of_mem _ he)) _ (by simpa [List.append_assoc] using hd)]
    simp

private theorem entriesToDict_leaves (out : List (List Char × StoredVal ν)) :
    entriesToDict (out.map fun e => (e.1, H5Node.leaf e.2)) = out.map fun e => (e.1, MetaOut.node e.2) := by
  induction out with
  | nil => rfl
  | cons e out ih => simp [entriesToDict, nodeToDict, ih]

/-- A dictionary that can be stored: its keys are plain and different (as in every dictionary), its strings are ASCII. -/
structure Spec.Storable (lib : H5Lib) (info : List (List Char × MetaVal ν)) (out : List (List Char × StoredVal ν)) : Prop where
  entries : List.Forall₂ (fun a b => b.1 = a.1 ∧ StoredAs a.2 b.2) info out
  keys : ∀ e ∈ info, PlainKey lib e.1
  dict : (info.map Prod.fst).Nodup

private theorem init_plain {s : WriteSet α β ν} {out : List (List Char × StoredVal ν)} (h : Storable s.lib s.info out) :
    s.init.2 = none ∧ Recorded s.init.1 [] s.channels s.freq out := by
  by_cases h0 : s.info.length > 0
  · have := addEntries_plain s.lib s.info out h.entries h.keys [] (by simpa using h.dict)
    have hi : s.init = (⟨[], s.channels, s.freq, some (out.map fun e => (e.1, H5Node.leaf e.2))⟩, none) := by
      simp [WriteSet.init, h0, this]
    rw [hi]
    exact ⟨rfl, rfl, rfl, rfl, by simp [entriesToDict_leaves]⟩
  · have he : s.info = [] := List.eq_nil_of_length_eq_zero (by omega)
    have hout : out = [] := by
      have := h.entries
      rw [he] at this
      cases this
      rfl
    have hi : s.init = (⟨[], s.channels, s.freq, none⟩, none) := by simp [WriteSet.init, h0]
    rw [hi, hout]
    exact ⟨rfl, rfl, rfl, rfl, rfl⟩

private theorem foldl_rows (c : α → β) (blocks : List (List α)) (rows : List β) :
    blocks.foldl (fun rows b => rows ++ b.map c) rows = rows ++ blocks.flatten.map c := by
  induction blocks generalizing rows with
  | nil => simp
  | cons b bs ih => simp [ih]

/-- **C131** `WriteH5.save()` writes all samples of the source in their order, however the source divides them into blocks, the
sampling rate and the metadata, provided that the metadata are `Storable`. -/
theorem C131_save_partial (s : WriteSet α β ν) (out : List (List Char × StoredVal ν)) (h : Storable s.lib s.info out)
    (data : List α) (blocks : List (List α)) (hb : blocks.flatten = data) :
    (s.save blocks).2 = none ∧ Recorded (s.save blocks).1 (data.map s.cast) s.channels s.freq out := by
  obtain ⟨h2, h1⟩ := init_plain h
  obtain ⟨f, hf⟩ : ∃ f, s.init = (f, none) := ⟨s.init.1, by rw [← h2]⟩
  rw [hf] at h1
  have : s.save blocks = ({ f with rows := blocks.foldl (fun rows b => rows ++ b.map s.cast) f.rows }, none) := by
    simp [WriteSet.save, hf]
  rw [this]
  refine ⟨rfl, ?_, h1.channels, h1.freq, h1.info⟩
  have hr := h1.rows
  simp only at hr ⊢
  rw [foldl_rows, hr, hb, List.nil_append]

private theorem take_chunks {num : ℕ} (hn : 0 < num) (k : ℕ) (data : List α) :
    (chunks num data).take k = chunks num (data.take (k * num)) := by
  induction k generalizing data with
  | zero => simp [chunks_nil]
  | succ k ih =>
    by_cases hd : data = []
    · simp [hd, chunks_nil]
    · have hd' : data.take ((k + 1) * num) ≠ [] := by
        have : 0 < (k + 1) * num := Nat.mul_pos (by omega) hn
        simp only [ne_eq, List.take_eq_nil_iff, not_or]; exact ⟨by omega, hd⟩
      rw [chunks_step hn hd, chunks_step hn hd', List.take_succ_cons, ih, List.take_take, List.drop_take]
      have h1 : min num ((k + 1) * num) = num := by rw [Nat.add_mul]; omega
      have h2 : (k + 1) * num - num = k * num := by rw [Nat.add_mul]; omega
      rw [h1, h2]

private theorem loop_congr (stotal : Int) (num : ℕ) (f g : ℕ → Bool) (blocks : List (List α)) (k sc : ℕ)
    (h : ∀ j, k ≤ j → j < k + blocks.length → f j = g j) :
    WriteH5.loop stotal num f k sc blocks = WriteH5.loop stotal num g k sc blocks := by
  induction blocks generalizing k sc with
  | nil => rfl
  | cons b bs ih =>
    simp only [WriteH5.loop, h k (Nat.le_refl k) (by simp)]
    split
    · rfl
    · split
      · rfl
      · rw [ih (k + 1) _ fun j h1 h2 => h j (by omega) (by simp at h2 ⊢; omega)]

private theorem after_rows (blocks : List (List α)) (limit : Int) (num : ℕ) (flags : ℕ → Bool) (k : ℕ)
    (hup : ∀ j < k, flags j = true) :
    WriteH5.result (blocks.take k) limit num flags = WriteH5.result (blocks.take k) limit num fun j => decide (j < k) := by
  refine loop_congr _ _ _ _ _ _ _ fun j _ hj => ?_
  have : j < k := by simp only [List.length_take] at hj; omega
  simp [hup j this, this]

/-- **C131** When the process ends after `WriteH5.result(num)` has yielded `k` blocks (a crash, a break of the loop) the file holds
exactly the rows of those blocks, up to `num_samples_write`, the sampling rate and the metadata. -/
theorem C131_interrupted_partial (s : WriteSet α β ν) (out : List (List Char × StoredVal ν)) (h : Storable s.lib s.info out)
    (data : List α) (blocks : List (List α)) (num : ℕ) (hn : 0 < num) (hb : IsBlocking num data blocks) (flags : ℕ → Bool)
    (k : ℕ) (hup : ∀ j < k, flags j = true) :
    (∀ limit : ℕ, (s.after blocks limit num flags k).2 = none ∧
      Recorded (s.after blocks limit num flags k).1 ((data.take (min limit (k * num))).map s.cast) s.channels s.freq out) ∧
    (s.after blocks (-1) num flags k).2 = none ∧
      Recorded (s.after blocks (-1) num flags k).1 ((data.take (k * num)).map s.cast) s.channels s.freq out := by
  obtain ⟨h2, h1⟩ := init_plain h
  obtain ⟨f, hf⟩ : ∃ f, s.init = (f, none) := ⟨s.init.1, by rw [← h2]⟩
  rw [hf] at h1
  have e : ∀ l : Int, s.after blocks l num flags k
      = ({ f with rows := f.rows ++ (WriteH5.result (blocks.take k) l num flags).1.map s.cast }, none) := fun l => by
    simp [WriteSet.after, hf]
  have hr := h1.rows
  simp only at hr
  have hc : IsBlocking num (data.take (k * num)) (blocks.take k) := by
    rw [(isBlocking_iff hn).1 hb, take_chunks hn]
    exact isBlocking_chunks hn _
  refine ⟨fun limit => ?_, ?_⟩
  · rw [e]
    refine ⟨rfl, ?_, h1.channels, h1.freq, h1.info⟩
    have := (C12_write_h5_limit _ _ num hn hc limit (fun j => decide (j < k)) k (by simp) (by simp)).1
    simp only
    rw [after_rows _ _ _ _ _ hup, this, hr, List.take_take, List.nil_append]
    congr 2
    omega
  · rw [e]
    refine ⟨rfl, ?_, h1.channels, h1.freq, h1.info⟩
    have := (C12_write_h5_unlimited _ _ num hn hc (fun j => decide (j < k)) k (by simp) (by simp)).1
    simp only
    rw [after_rows _ _ _ _ _ hup, this, hr, List.take_take, List.nil_append, Nat.min_self]

/-- A `TimeSamples` object that shows the content of the file `f` stored as `p`. -/
structure Spec.Shows (s : TsState β ν) (p : List Char) (rows : List β) (channels : ℕ) (freq : ν) (info : List (List Char × MetaOut ν)) :
    Prop where
  file : s.file = p
  data : s.data = rows
  numSamples : s.numSamples = rows.length
  numChannels : s.numChannels = channels
  freq : s.freq = freq
  info : s.info = info

/-- **C131** Loading what `save()` has written: after any history of assignments to a `TimeSamples` object, assigning the name of
the file, if it is not the present one, gives the samples of the source (in the precision of the file), their number, the sampling
rate and the metadata, and nothing of what was there before. -/
theorem C131_load_partial (s : WriteSet α β ν) (out : List (List Char × StoredVal ν)) (h : Storable s.lib s.info out)
    (data : List α) (blocks : List (List α)) (hb : blocks.flatten = data)
    (disk : List Char → Option (Recording β ν)) (p : List Char) (hp : disk p = some (s.save blocks).1)
    (t : TsState β ν) (hist : List (TsOp β ν)) (hnew : (t.run disk hist).file ≠ p) :
    Shows (t.run disk (hist ++ [.setFile p])) p (data.map s.cast) s.channels s.freq
      (out.map fun e => (e.1, MetaOut.node e.2)) := by
  have hrun : ∀ (ops : List (TsOp β ν)) (t : TsState β ν), t.run disk (ops ++ [.setFile p])
      = (t.run disk ops).run disk [.setFile p] := by
    intro ops
    induction ops with
    | nil => intro t; rfl
    | cons op ops ih =>
      intro t
      simp only [List.cons_append, TsState.run]
      split <;> exact ih _
  have hr := (C131_save_partial s out h data blocks hb).2
  rw [hrun]
  generalize t.run disk hist = u at hnew ⊢
  have : u.run disk [.setFile p] = u.load p (s.save blocks).1 := by
    simp [TsState.run, TsState.step, hp, Ne.symm hnew]
  rw [this]
  refine ⟨rfl, hr.rows, ?_, hr.channels, hr.freq, ?_⟩
  · simp [TsState.load, hr.rows]
  · rw [← hr.info]
    unfold TsState.load
    cases (s.save blocks).1.info <;> rfl

/-- **C131** violated: assigning the name of the present file again does not load it: samples or a sampling rate set by hand
stay, whatever is in the file. -/
theorem C131_same_file_violated (disk : List Char → Option (Recording β ν)) (t : TsState β ν) (p : List Char) (r : Recording β ν)
    (hp : disk p = some r) (d : List β) (n : ℕ) (fr : ν) :
    Shows (t.run disk [.setFile p, .setData d n, .setFreq fr, .setFile p]) p d n fr
      (t.run disk [.setFile p]).info := by
  by_cases h : p = t.file
  · subst h
    simp only [TsState.run, TsState.step, hp, ↓reduceIte]
    exact ⟨rfl, rfl, rfl, rfl, rfl, rfl⟩
  · simp only [TsState.run, TsState.step, hp, h, ↓reduceIte, TsState.load]
    exact ⟨rfl, rfl, rfl, rfl, rfl, rfl⟩

/-- **C131** A name of a file that does not exist is refused and changes nothing. -/
theorem C131_missing (disk : List Char → Option (Recording β ν)) (t : TsState β ν) (p : List Char) (hp : disk p = none) :
    t.step disk (.setFile p) = .error .traitError ∧ t.run disk [.setFile p] = t := by
  simp [TsState.run, TsState.step, hp]

/-- The hypotheses of `C131_missing` are met: -/
example := C131_missing (β := ℕ) (ν := ℕ) (fun _ => none) ⟨[], [], 0, 0, 0, []⟩ "b.h5".toList rfl

/-- **C131** violated: a character that is not ASCII in a metadata string, behind any plain entries, makes `save()` (and `result()`)
fail, and the file is left without any sample, so that a recording that was there under this name is lost. -/
theorem C131_unicode_violated (s : WriteSet α β ν) (info rest : List (List Char × MetaVal ν)) (out : List (List Char × StoredVal ν))
    (h : Storable s.lib info out) (k v : List Char) (hi : s.info = info ++ (k, .str v) :: rest) (hv : ∃ c ∈ v, 128 ≤ c.toNat)
    (blocks : List (List α)) :
    (s.save blocks).2 = some .valueError ∧ (s.save blocks).1.rows = [] := by
  have hst : (MetaVal.str v : MetaVal ν).store = .error .valueError := by
    obtain ⟨c, hc, h128⟩ := hv
    have : (v.all fun c => decide (c.toNat < 128)) = false := by
      rw [List.all_eq_false]
      exact ⟨c, hc, by simpa using h128⟩
    simp [MetaVal.store, this]
  have hfail : ∀ (l : List (List Char × MetaVal ν)) (es : List (List Char × H5Node ν)) (es' : List (List Char × H5Node ν)),
      addEntries s.lib l es = (es', none) → addEntries s.lib (l ++ (k, .str v) :: rest) es = (es', some .valueError) := by
    intro l
    induction l with
    | nil =>
      intro es es' h
      simp only [addEntries, Prod.mk.injEq, and_true] at h
      simp [addEntries, hst, h]
    | cons e l ih =>
      obtain ⟨k1, v1⟩ := e
      intro es es' h
      rw [List.cons_append, addEntries]
      rw [addEntries] at h
      split
      · rename_i e he
        rw [he] at h
        simp at h
      · rename_i w he
        rw [he] at h
        simp only at h
        split
        · rename_i e hc
          rw [hc] at h
          simp at h
        · rename_i es2 hc
          rw [hc] at h
          exact ih _ _ h
  have h1 := hfail info [] _ (addEntries_plain s.lib info out h.entries h.keys [] (by simpa using h.dict))
  have hlen : s.info.length > 0 := by rw [hi]; simp; omega
  have hinit : s.init = (⟨[], s.channels, s.freq, some ([] ++ out.map fun e => (e.1, H5Node.leaf e.2))⟩, some .valueError) := by
    unfold WriteSet.init
    simp only []
    rw [if_pos hlen, hi, h1]
  constructor <;> simp only [WriteSet.save, hinit]

private theorem keyPath_pair {a b : List Char} (ha : a ≠ []) (hb : b ≠ []) (ha' : '/' ∉ a) (hb' : '/' ∉ b) :
    keyPath (a ++ '/' :: b) = [a, b] := by
  have hsplit : splitSlash (a ++ '/' :: b) = [a, b] := by
    clear ha
    induction a with
    | nil => simp [splitSlash, splitSlash_plain hb']
    | cons c cs ih =>
      have hc : c ≠ '/' := fun h' => ha' (by simp [h'])
      simp [splitSlash, hc, ih fun h' => ha' (List.mem_cons_of_mem _ h')]
  simp [keyPath, hsplit, ha, hb]

/-- **C131** violated: a key with a `/` is read back as a dictionary within the dictionary when the library is h5py. -/
theorem C131_slash_violated (channels : ℕ) (freq v : ν) (cast : α → β) (a b : List Char) (ha : a ≠ []) (hb : b ≠ [])
    (ha' : '/' ∉ a) (hb' : '/' ∉ b) (blocks : List (List α)) :
    let s : WriteSet α β ν := ⟨.h5py, channels, freq, [(a ++ '/' :: b, .other v)], cast⟩
    (s.save blocks).2 = none ∧
    (s.save blocks).1.info.elim [] entriesToDict = [(a, .dict [(b, .node (.other v))])] := by
  have hp : keyPath (a ++ '/' :: b) = [a, b] := keyPath_pair ha hb ha' hb'
  simp [WriteSet.save, WriteSet.init, addEntries, MetaVal.store, createArray, hp, insertPath, lookupEntry, entriesToDict,
    nodeToDict]

/-- The hypotheses of `C131_slash_violated` are met: -/
example := C131_slash_violated (α := ℕ) 1 51200 3 id "run".toList "no".toList (by decide) (by decide) (by decide) (by decide) [[1, 2], [3]]

/-- **C131** violated: two keys that begin with the same name before the `/` are read back as one entry, a dictionary of the two; the
entries between them stay where they are. -/
theorem C131_slash_group_violated (channels : ℕ) (freq u v w : ν) (cast : α → β) (a b c d : List Char) (ha : a ≠ []) (hb : b ≠ []) (hc : c ≠ [])
    (hd : d ≠ []) (hbc : b ≠ c) (had : a ≠ d) (ha' : '/' ∉ a) (hb' : '/' ∉ b) (hc' : '/' ∉ c) (hd' : '/' ∉ d)
    (blocks : List (List α)) :
    let s : WriteSet α β ν := ⟨.h5py, channels, freq, [(a ++ '/' :: b, .other v), (d, .other u), (a ++ '/' :: c, .other w)], cast⟩
    (s.save blocks).2 = none ∧
    (s.save blocks).1.info.elim [] entriesToDict = [(a, .dict [(b, .node (.other v)), (c, .node (.other w))]), (d, .node (.other u))] := by
  have hp : keyPath (a ++ '/' :: b) = [a, b] := keyPath_pair ha hb ha' hb'
  have hp' : keyPath (a ++ '/' :: c) = [a, c] := keyPath_pair ha hc ha' hc'
  have hq : keyPath d = [d] := by simp [keyPath, splitSlash_plain hd', hd]
  simp [WriteSet.save, WriteSet.init, addEntries, MetaVal.store, createArray, hp, hp', hq, insertPath, lookupEntry, entriesToDict,
    nodeToDict, hbc, had, had.symm]

/-- The hypotheses of `C131_slash_group_violated` are met: -/
example := C131_slash_group_violated (α := ℕ) 1 51200 3 4 5 id "run".toList "no".toList "day".toList "place".toList (by decide) (by decide) (by decide)
  (by decide) (by decide) (by decide) (by decide) (by decide) (by decide) (by decide) [[1, 2], [3]]

/-- **C131** With PyTables a key that is no valid name of a node is refused, after the file has been emptied. -/
theorem C131_name_violated (valid : List Char → Bool) (channels : ℕ) (freq v : ν) (cast : α → β) (k : List Char)
    (hk : valid k = false) (blocks : List (List α)) :
    let s : WriteSet α β ν := ⟨.tables valid, channels, freq, [(k, .other v)], cast⟩
    (s.save blocks).2 = some .valueError ∧ (s.save blocks).1.rows = [] := by
  simp [WriteSet.save, WriteSet.init, addEntries, MetaVal.store, createArray, hk]

/-- A recording with two entries of metadata. -/
private theorem twoEntries : Storable (ν := ℕ) .h5py [("place".toList, .str "hall".toList), ("run".toList, .other 3)]
    [("place".toList, .bytes "hall".toList), ("run".toList, .other 3)] where
  entries := .cons ⟨rfl, rfl, by decide⟩ (.cons ⟨rfl, rfl⟩ .nil)
  keys := by
    intro e he
    simp only [List.mem_cons, List.not_mem_nil, or_false] at he
    rcases he with rfl | rfl <;> exact ⟨by decide, by decide, trivial⟩
  dict := by decide

/-- And without any. -/
example : Storable (ν := ℕ) .h5py [] [] := ⟨.nil, by simp, by simp⟩

/-- The settings of the instances below. -/
private def setEx : WriteSet ℕ ℕ ℕ :=
  ⟨.h5py, 1, 51200, [("place".toList, .str "hall".toList), ("run".toList, .other 3)], fun x => x % 256⟩

/-- The hypotheses of `C131_save_partial` are met: -/
example := C131_save_partial setEx _ twoEntries [1, 2, 3] [[1, 2], [3]] rfl

/-- The hypotheses of `C131_interrupted_partial` are met: -/
example := C131_interrupted_partial setEx _ twoEntries [1, 2, 3, 4, 5] _ 2 (by decide) (isBlocking_chunks (by decide) _) (fun j => j == 0) 1
  (by decide)

/-- The hypotheses of `C131_load_partial` are met: -/
example := C131_load_partial setEx _ twoEntries [1, 2, 3] [[1, 2], [3]] rfl
  (fun p => if p = "a.h5".toList then some (setEx.save [[1, 2], [3]]).1 else none) "a.h5".toList (if_pos rfl) ⟨[], [], 0, 0, 0, []⟩ [.setData [7] 1]
  (by decide)

end Acoular
