import Verif.Model.Chain
import Verif.Props.Stream
import Verif.Props.Average
import Verif.Props.Filter
import Verif.Props.Cache
import Verif.Props.Alias

/-!
# C125: chains of processing blocks
-/

namespace Acoular

variable {K : Type} [Field K]

/-- The object announces a whole number of samples: no average between it and the next mask or source. -/
def Spec.Whole : {n : ℕ} → Chain K n → Prop
  | _, .samples _ | _, .mask .. => True
  | _, .average .. => False
  | _, .calib _ c | _, .power c | _, .cumAverage c | _, .filter _ c | _, .zeroPhase _ _ c | _, .reverse _ c
  | _, .cache _ _ c | _, .write c | _, .mixer c _ => Spec.Whole c
  | _, .channels _ c => Spec.Whole c

open Spec

/-- **Specification** The signal a chain of objects stands for, without any reference to blocks. -/
inductive Spec.Means : {n : ℕ} → Chain K n → List (Fin n → K) → Prop
  /-- recorded data -/
  | samples {n : ℕ} (data : List (Fin n → K)) (hd : data ≠ []) : Means (.samples data) data
  /-- the selected rows and channels -/
  | mask {n : ℕ} {start : ℤ} {stop : Option ℤ} {invalid : List ℤ} {c : Chain K n} {data : List (Fin n → K)} (h : Means c data)
      (hw : Whole c) (hs : selectIdx (inPySlice start stop data.length) data ≠ []) (hv : keptChannels invalid n ≠ []) :
      Means (.mask start stop invalid c)
        ((selectIdx (inPySlice start stop data.length) data).map fun row j => row (keptChannels invalid n)[j])
  /-- every channel multiplied by its factor -/
  | calib {n : ℕ} {factors : Fin n → K} {c : Chain K n} {data : List (Fin n → K)} (h : Means c data) (hn : 0 < n) :
      Means (.calib (List.ofFn factors) c) (data.map fun row i => row i * factors i)
  /-- squares -/
  | power {n : ℕ} {c : Chain K n} {data : List (Fin n → K)} (h : Means c data) : Means (.power c) (data.map fun row i => row i * row i)
  /-- weighted sum of the channels -/
  | channels {n : ℕ} {weights : Fin n → K} {c : Chain K n} {data : List (Fin n → K)} (h : Means c data) (hn : 0 < n) :
      Means (.channels (List.ofFn weights) c) (data.map fun row _ => ∑ i, weights i * row i)
  /-- sum of the channels -/
  | total {n : ℕ} {c : Chain K n} {data : List (Fin n → K)} (h : Means c data) :
      Means (.channels [] c) (data.map fun row _ => ∑ i, row i)
  /-- averages of groups of `nav` rows -/
  | average {n nav : ℕ} {c : Chain K n} {data : List (Fin n → K)} (h : Means c data) (hn : 0 < nav) :
      Means (.average nav c) (groupAverages K nav data)
  /-- averages of all rows so far -/
  | cumAverage {n : ℕ} {c : Chain K n} {data : List (Fin n → K)} (h : Means c data) : Means (.cumAverage c) (cumulativeAverages K data)
  /-- the response of the filter -/
  | filter {n : ℕ} {sos : List (Sos K)} {c : Chain K n} {data : List (Fin n → K)} {y : ℕ → Fin n → K} (h : Means c data)
      (hy : IsSosResponse sos (signal data) y) : Means (.filter sos c) ((List.range data.length).map y)
  /-- the zero phase filter applied to the whole signal -/
  | zeroPhase {n : ℕ} {filtfilt : List (Fin n → K) → List (Fin n → K)} {junk : ℕ → Fin n → K} {c : Chain K n}
      {data : List (Fin n → K)} (h : Means c data) (hw : Whole c) (hl : (filtfilt data).length = data.length) :
      Means (.zeroPhase filtfilt junk c) (filtfilt data)
  /-- the reversed signal -/
  | reverse {n : ℕ} {junk : ℕ → Fin n → K} {c : Chain K n} {data : List (Fin n → K)} (h : Means c data) (hd : data ≠ []) :
      Means (.reverse junk c) data.reverse
  /-- the same signal -/
  | cache {n : ℕ} {mode : CacheMode} {history : List CacheRun} {c : Chain K n} {data : List (Fin n → K)} (h : Means c data)
      (hd : data ≠ []) (hn : ∀ r ∈ history, 0 < r.num) : Means (.cache mode history c) data
  /-- the same signal -/
  | write {n : ℕ} {c : Chain K n} {data : List (Fin n → K)} (h : Means c data) : Means (.write c) data
  /-- the sum of both signals -/
  | mixer {n : ℕ} {c d : Chain K n} {data other : List (Fin n → K)} (h : Means c data) (h' : Means d other)
      (hl : other.length = data.length) : Means (.mixer c d) (List.zipWith (· + ·) data other)

private theorem selected_length {α : Type} (start : ℤ) (stop : Option ℤ) (data : List α)
    (hs : selectIdx (inPySlice start stop data.length) data ≠ []) :
    maskedNumSamples start stop data.length = (selectIdx (inPySlice start stop data.length) data).length := by
  have h0 := List.length_pos_iff.2 hs
  have hle := sliceIndices_snd_le start stop data.length
  rw [selectIdx_inPySlice, List.length_drop, List.length_take] at h0 ⊢
  unfold maskedNumSamples
  simp only
  omega

/-- **C125** (announced number) The number of samples announced is the number of samples of the signal; behind an average it is
a fraction whose whole part is this number. -/
theorem C125_announced_partial {n : ℕ} {c : Chain K n} {data : List (Fin n → K)} (h : Means c data) :
    ∃ v, c.numSamples = .ok v ∧ (Whole c → v = .int data.length) ∧ (∀ q, v = .float q → ⌊q⌋ = data.length) ∧
      (∀ m, v = .int m → m = data.length) := by
  induction h with
  | samples data hd => exact ⟨_, rfl, fun _ => rfl, by simp, by simp⟩
  | @mask n start stop invalid c data h hw hs hv ih =>
    obtain ⟨v, h1, h2, -, -⟩ := ih
    rw [h2 hw] at h1
    have e : (Chain.mask start stop invalid c).numSamples = .ok (.int (maskedNumSamples start stop data.length)) := by
      rw [Chain.numSamples, h1]; rfl
    rw [selected_length start stop data hs] at e
    refine ⟨_, e, fun _ => by simp, by simp, by simp⟩
  | calib h hn ih => simpa [Chain.numSamples, Whole] using ih
  | power h ih => simpa [Chain.numSamples, Whole] using ih
  | channels h hn ih => simpa [Chain.numSamples, Whole] using ih
  | total h ih => simpa [Chain.numSamples, Whole] using ih
  | @average n nav c data h hn ih =>
    obtain ⟨v, h1, h2, h3, h4⟩ := ih
    cases v with
    | int m =>
      have := h4 m rfl
      subst this
      refine ⟨_, by rw [Chain.numSamples, h1]; simp only [if_neg hn.ne']; rfl, fun hw => hw.elim, ?_, by simp⟩
      intro q hq
      cases hq
      rw [Int.cast_natCast, show ((data.length : ℚ)) = ((data.length : ℤ) : ℚ) by simp, Rat.floor_intCast_div_natCast]
      simp [groupAverages]
    | float q =>
      refine ⟨_, by rw [Chain.numSamples, h1]; simp only [if_neg hn.ne']; rfl, fun hw => hw.elim, ?_, by simp⟩
      have := h3 q rfl
      intro q' hq
      cases hq
      rw [Int.floor_div_natCast, this]
      simp [groupAverages]
  | cumAverage h ih => simpa [Chain.numSamples, Whole, cumulativeAverages] using ih
  | filter h hy ih => simpa [Chain.numSamples, Whole] using ih
  | zeroPhase h hw hl ih => rw [hl]; simpa [Chain.numSamples, Whole] using ih
  | reverse h hd ih => simpa [Chain.numSamples, Whole] using ih
  | cache h hd hn ih => simpa [Chain.numSamples, Whole] using ih
  | write h ih => simpa [Chain.numSamples, Whole] using ih
  | mixer h h' hl ih ih' => simpa [Chain.numSamples, Whole, hl] using ih

private theorem through_ok {α β : Type} (src : Trace α) (f : List α → Trace β) (h : src.exit = .returned) :
    src.through f = f src.blocks := by
  simp [Trace.through, h]

private theorem collected_ok {α β : Type} (src : Trace α) (f : List α → Trace β) (h : src.exit = .returned) :
    src.collected f = f src.blocks := by
  simp [Trace.collected, h]

private theorem select_finRange (n : ℕ) (p : ℕ → Bool) :
    selectIdx p (List.finRange n) = (List.finRange n).filter fun i : Fin n => p i := by
  rw [selectIdx_eq_filterMap, List.length_finRange]
  have h : (List.range n).filter p = ((List.finRange n).filter fun i : Fin n => p i).map fun i : Fin n => (i : ℕ) := by
    rw [← List.map_coe_finRange_eq_range, List.filter_map]; rfl
  rw [h, List.filterMap_map]
  have : ((fun i => (List.finRange n)[i]?) ∘ fun i : Fin n => (i : ℕ)) = some := by
    funext i
    simp
  rw [this, List.filterMap_some]

omit [Field K] in
private theorem select_row {n : ℕ} (invalid : List ℤ) (row : Fin n → K) :
    selectIdx (validChannel invalid) (List.ofFn row) = (keptChannels invalid n).map row := by
  rw [List.ofFn_eq_map, selectIdx_map, select_finRange]
  congr 1
  unfold keptChannels
  apply List.filter_congr
  intro i _
  simp [validChannel]

private theorem rowsIn_blocking {m num : ℕ} (hn : 0 < num) {lists : List (List K)} {data : List (Fin m → K)} {t : Trace (List (List K))}
    (h : t.exit = .returned ∧ IsBlocking num lists t.blocks) (hd : lists.map (fun row (j : Fin m) => row.getD j 0) = data) :
    (rowsIn m t).exit = .returned ∧ IsBlocking num data (rowsIn m t).blocks := by
  subst hd
  exact ⟨h.1, IsBlocking.map hn _ h.2⟩

private theorem write_all {V : Type} (num : ℕ) (blocks : List (List V)) : ∀ k s,
    (WriteH5.loop (-1) num (fun _ => true) k s blocks).2 = blocks := by
  induction blocks with
  | nil => intros; rfl
  | cons b bs ih =>
    intro k s
    simp [WriteH5.loop, WriteH5.quota, ih]

private theorem refs_read {V : Type} (par : ℕ) (h : Heap V) (a : List (List V))
    (ha : ∀ k, h (2 * k + par) = a.getD k []) : (twoRefs par a).map h.read = a := by
  apply List.ext_getElem
  · simp [twoRefs]
  · intro k h1 h2
    simp [twoRefs, Heap.read, ha, h2]

private theorem mix_blocks {V : Type} [AddCommGroup V] (num : ℕ) (hn : 0 < num) (data other : List V) (hl : other.length = data.length)
    (a b : List (List V)) (ha : IsBlocking num data a) (hb : IsBlocking num other b) :
    (mixBlocks a b).exit = .returned ∧ IsBlocking num (List.zipWith (· + ·) data other) (mixBlocks a b).blocks := by
  have ra : (twoRefs 0 a).map (twoHeap a b).read = a := refs_read 0 _ a fun k => by simp [twoHeap]
  have rb : (twoRefs 1 b).map (twoHeap a b).read = b := refs_read 1 _ b fun k => by
    have : (2 * k + 1) / 2 = k := by omega
    simp [twoHeap, this]
  have h := C13_mixer_partial num hn (twoHeap a b) data [other] (twoRefs 0 a) [twoRefs 1 b] (by rwa [ra])
    (List.Forall₂.cons (by rwa [rb]) List.Forall₂.nil) (by
      intro t ht
      simp only [twoRefs, List.mem_map, List.mem_range] at ht
      obtain ⟨k, hk, rfl⟩ := ht
      simp [Ref.Inside, twoHeap]) (by
      intro g hg t ht
      simp only [List.mem_singleton] at hg
      subst hg
      simp only [twoRefs, List.mem_map, List.mem_range] at ht
      obtain ⟨k, hk, rfl⟩ := ht
      have : (2 * k + 1) / 2 = k := by omega
      simp [Ref.Inside, twoHeap, this]) (by
      unfold twoRefs
      rw [List.pairwise_map]
      refine List.Pairwise.imp ?_ List.nodup_range
      intro i j hij
      left
      simp only
      omega) (by
      intro t ht g hg r hr
      simp only [List.mem_singleton] at hg
      subst hg
      simp only [twoRefs, List.mem_map, List.mem_range] at ht hr
      obtain ⟨k, hk, rfl⟩ := ht
      obtain ⟨j, hj, rfl⟩ := hr
      left
      simp only
      omega)
  refine ⟨h.1, ?_⟩
  have e : mixed data [other] = List.zipWith (· + ·) data other := by
    apply List.ext_getElem
    · simp [mixed]
    · intro k h1 h2
      simp only [List.length_zipWith] at h2
      have k1 : k < data.length := by omega
      have k2 : k < other.length := by omega
      simp [mixed, k1, k2]
  rw [← e]
  exact h.2.1

/-- A family of chains that contains the sources of its members. -/
def Spec.Closed (U : {n : ℕ} → Chain K n → Prop) : Prop := ∀ {n : ℕ} (c : Chain K n), U c → ∀ s ∈ c.sources, U s.2

/-- A chain in which every cache is transparent delivers the signal it stands for. -/
theorem chain_with [CharZero K] (U : {n : ℕ} → Chain K n → Prop) (hc : Closed U) (handler : CacheHandler K)
    (hh : ∀ {n : ℕ} (mode : CacheMode) (history : List CacheRun) (c : Chain K n) (data : List (Fin n → K))
      (src : ℕ → Trace (List (Fin n → K))), U (.cache mode history c) → Means c data → data ≠ [] → (∀ r ∈ history, 0 < r.num) →
      (∀ num, 0 < num → (src num).exit = .returned ∧ IsBlocking num data (src num).blocks) → ∀ num, 0 < num →
      (handler mode history c src num).exit = .returned ∧ IsBlocking num data (handler mode history c src num).blocks)
    {n : ℕ} {c : Chain K n} {data : List (Fin n → K)} (h : Means c data) (hU : U c) : ∀ (num : ℕ), 0 < num →
    (c.resultWith handler num).exit = .returned ∧ IsBlocking num data (c.resultWith handler num).blocks := by
  induction h with
  | @samples n data hd =>
    intro num hn
    refine rowsIn_blocking hn (C01_time_samples _ n num hn (by simpa using hd)) ?_
    rw [List.map_map]
    conv_rhs => rw [← List.map_id data]
    apply List.map_congr_left
    intro r _
    funext j
    simp
  | @mask n start stop invalid c data h hw hs hv ih =>
    intro num hn
    obtain ⟨i1, i2⟩ := ih (hc _ hU ⟨_, c⟩ (by simp [Chain.sources])) num hn
    obtain ⟨v, e1, e2, -, -⟩ := C125_announced_partial h
    rw [e2 hw] at e1
    rw [Chain.resultWith, e1]
    simp only
    rw [through_ok _ _ i1]
    have hv' : invalid = [] ∨ ∃ i < n, (i : ℤ) ∉ invalid := by
      obtain ⟨i, hi⟩ := List.exists_mem_of_ne_nil _ hv
      right
      exact ⟨i, i.2, by simpa [keptChannels] using hi⟩
    have := C02_masked_time_out (data.map List.ofFn) n (by simp) (rowsOut (c.resultWith handler num).blocks) num hn (IsBlocking.map hn _ i2)
      start stop invalid hv' (by rw [List.length_map, selectIdx_map]; simpa using hs)
    simp only [List.length_map] at this
    refine rowsIn_blocking hn ⟨this.1, this.2.1⟩ ?_
    rw [selectIdx_map, List.map_map, List.map_map]
    apply List.map_congr_left
    intro r _
    funext j
    simp only [Function.comp, select_row]
    simp
  | @calib n factors c data h h0 ih =>
    intro num hn
    obtain ⟨i1, i2⟩ := ih (hc _ hU ⟨_, c⟩ (by simp [Chain.sources])) num hn
    rw [Chain.resultWith, through_ok _ _ i1]
    refine rowsIn_blocking hn ((C58_calib (data.map List.ofFn) (rowsOut (c.resultWith handler num).blocks) num n hn (IsBlocking.map hn _ i2)
      (List.ofFn factors) [] h0).1 (by rw [select_row]; simp [keptChannels])) ?_
    rw [select_row, List.map_map, List.map_map]
    apply List.map_congr_left
    intro r _
    funext j
    simp [keptChannels]
  | @power n c data h ih =>
    intro num hn
    obtain ⟨i1, i2⟩ := ih (hc _ hU ⟨_, c⟩ (by simp [Chain.sources])) num hn
    rw [Chain.resultWith, through_ok _ _ i1]
    refine rowsIn_blocking hn (C58_time_power (data.map List.ofFn) (rowsOut (c.resultWith handler num).blocks) num hn (IsBlocking.map hn _ i2)) ?_
    rw [List.map_map, List.map_map]
    apply List.map_congr_left
    intro r _
    funext j
    simp
  | @channels n weights c data h h0 ih =>
    intro num hn
    obtain ⟨i1, i2⟩ := ih (hc _ hU ⟨_, c⟩ (by simp [Chain.sources])) num hn
    rw [Chain.resultWith, through_ok _ _ i1]
    refine rowsIn_blocking hn ((C58_channel_mixer (data.map List.ofFn) (rowsOut (c.resultWith handler num).blocks) num n hn (by simp) (IsBlocking.map hn _ i2)
      (List.ofFn weights)).2.2.1 (by simp) (by intro e; have := congrArg List.length e; simp at this; omega)) ?_
    rw [List.map_map, List.map_map]
    apply List.map_congr_left
    intro r _
    funext j
    have : (List.zipWith (· * ·) (List.ofFn weights) (List.ofFn r)) = List.ofFn fun i => weights i * r i := by
      apply List.ext_getElem <;> simp
    simp [this, List.sum_ofFn]
  | @total n c data h ih =>
    intro num hn
    obtain ⟨i1, i2⟩ := ih (hc _ hU ⟨_, c⟩ (by simp [Chain.sources])) num hn
    rw [Chain.resultWith, through_ok _ _ i1]
    refine rowsIn_blocking hn ((C58_channel_mixer (data.map List.ofFn) (rowsOut (c.resultWith handler num).blocks) num n hn (by simp) (IsBlocking.map hn _ i2)
      []).1 rfl) ?_
    rw [List.map_map, List.map_map]
    apply List.map_congr_left
    intro r _
    funext j
    simp [List.sum_ofFn]
  | @average n nav c data h h0 ih =>
    intro num hn
    obtain ⟨i1, i2⟩ := ih (hc _ hU ⟨_, c⟩ (by simp [Chain.sources])) (num * nav) (Nat.mul_pos hn h0)
    rw [Chain.resultWith, if_neg h0.ne', through_ok _ _ i1]
    exact ⟨rfl, C03_average data _ num nav hn h0 i2⟩
  | @cumAverage n c data h ih =>
    intro num hn
    obtain ⟨i1, i2⟩ := ih (hc _ hU ⟨_, c⟩ (by simp [Chain.sources])) num hn
    rw [Chain.resultWith, through_ok _ _ i1]
    exact C09_time_cum_average data _ num hn i2
  | @filter n sos c data y h hy ih =>
    intro num hn
    obtain ⟨i1, i2⟩ := ih (hc _ hU ⟨_, c⟩ (by simp [Chain.sources])) num hn
    rw [Chain.resultWith, through_ok _ _ i1]
    obtain ⟨out, o1, o2⟩ := C10_filter sos data num hn _ i2 y hy
    rw [o1]
    exact ⟨rfl, o2⟩
  | @zeroPhase n ff junk c data h hw hl ih =>
    intro num hn
    obtain ⟨i1, i2⟩ := ih (hc _ hU ⟨_, c⟩ (by simp [Chain.sources])) num hn
    obtain ⟨v, e1, e2, -, -⟩ := C125_announced_partial h
    rw [e2 hw] at e1
    rw [Chain.resultWith, e1]
    simp only
    rw [collected_ok _ _ i1]
    obtain ⟨out, o1, o2⟩ := C10_filtfilt ff junk data num hn _ i2
    rw [Int.toNat_natCast, o1]
    exact ⟨rfl, o2⟩
  | @reverse n junk c data h hd ih =>
    intro num hn
    obtain ⟨i1, i2⟩ := ih (hc _ hU ⟨_, c⟩ (by simp [Chain.sources])) num hn
    rw [Chain.resultWith, collected_ok _ _ i1]
    exact C08_time_reverse data _ num hn i2 hd _ (by simp)
  | @cache n mode history c data h hd h0 ih =>
    intro num hn
    rw [Chain.resultWith]
    exact hh mode history c data (c.resultWith handler) hU h hd h0 (fun k hk => ih (hc _ hU ⟨_, c⟩ (by simp [Chain.sources])) k hk) num hn
  | @write n c data h ih =>
    intro num hn
    obtain ⟨i1, i2⟩ := ih (hc _ hU ⟨_, c⟩ (by simp [Chain.sources])) num hn
    rw [Chain.resultWith, through_ok _ _ i1]
    refine ⟨rfl, ?_⟩
    simp only [WriteH5.result, write_all]
    exact i2
  | @mixer n c d data other h h' hl ih ih' =>
    intro num hn
    obtain ⟨i1, i2⟩ := ih (hc _ hU ⟨_, c⟩ (by simp [Chain.sources])) num hn
    obtain ⟨j1, j2⟩ := ih' (hc _ hU ⟨_, d⟩ (by simp [Chain.sources])) num hn
    rw [Chain.resultWith, if_pos j1, through_ok _ _ i1]
    exact mix_blocks num hn data other hl _ _ i2 j2

/-- **C125** For every chain of objects that has a meaning, and every block size, the generator ends normally and its blocks are
the signal the chain stands for, cut into blocks of this size. -/
theorem C125_chain_partial [CharZero K] {n : ℕ} {c : Chain K n} {data : List (Fin n → K)} (h : Means c data) : ∀ (num : ℕ), 0 < num →
    (c.result num).exit = .returned ∧ IsBlocking num data (c.result num).blocks := by
  refine chain_with (fun _ => True) (fun _ _ _ _ => trivial) privateCache ?_ h trivial
  intro n mode history c data src _ _ hd h0 hs num hn
  have := C04_cache_transparent data hd (fun k => (src k).blocks) (fun k hk => (hs k hk).2) history h0 mode num hn
  simp only at this
  unfold privateCache
  rw [through_ok _ _ (hs num hn).1]
  refine ⟨?_, this.2.1⟩
  simp only [this.1]

/-- **C125** (block size) The samples do not depend on the block size. -/
theorem C125_block_size_partial [CharZero K] {n : ℕ} {c : Chain K n} {data : List (Fin n → K)} (h : Means c data) (num num' : ℕ)
    (hn : 0 < num) (hn' : 0 < num') : (c.result num).blocks.flatten = (c.result num').blocks.flatten := by
  rw [(C125_chain_partial h num hn).2.cover, (C125_chain_partial h num' hn').2.cover]

/-- The specification assigns one signal to a chain at most. -/
theorem C125_means_unique [CharZero K] {n : ℕ} {c : Chain K n} {data data' : List (Fin n → K)} (h : Means c data) (h' : Means c data') :
    data = data' := by
  rw [← (C125_chain_partial h 1 one_pos).2.cover, ← (C125_chain_partial h' 1 one_pos).2.cover]

/-- Specification: the block size that an object requests from its sources. -/
def Spec.requested : {n : ℕ} → Chain K n → ℕ → ℕ
  | _, .average nav _, num => num * nav
  | _, _, num => num

private theorem through_returned {α β : Type} {src : Trace α} {f : List α → Trace β} (h : (src.through f).exit = .returned) :
    src.exit = .returned := by
  by_contra hne
  unfold Trace.through at h
  by_cases ho : (f src.blocks).exit = .returned
  · rw [if_neg (by rintro (h1 | h1) <;> contradiction)] at h
    exact hne h
  · rw [if_pos (Or.inr ho)] at h
    exact ho h

private theorem collected_returned {α β : Type} {src : Trace α} {f : List α → Trace β} (h : (src.collected f).exit = .returned) :
    src.exit = .returned := by
  by_contra hne
  unfold Trace.collected at h
  rw [if_neg hne] at h
  exact hne h

/-- **C125.** No object hides a failure: if `result` comes to its regular end, that of every object connected to it does, too. -/
theorem C125_failures {n : ℕ} (c : Chain K n) (num : ℕ) (h : (c.result num).exit = .returned) :
    ∀ s ∈ c.sources, (s.2.result (requested c num)).exit = .returned := by
  intro s hs
  unfold Chain.result at *
  cases c with
  | samples data => simp [Chain.sources] at hs
  | mask start stop invalid c =>
    obtain rfl : s = ⟨_, c⟩ := by simpa [Chain.sources] using hs
    unfold Chain.resultWith at h
    cases hq : c.numSamples with
    | error e => rw [hq] at h; cases h
    | ok v => cases v with
      | float q => rw [hq] at h; cases h
      | int t => rw [hq] at h; exact through_returned h
  | zeroPhase filtfilt junk c =>
    obtain rfl : s = ⟨_, c⟩ := by simpa [Chain.sources] using hs
    unfold Chain.resultWith at h
    cases hq : c.numSamples with
    | error e => rw [hq] at h; cases h
    | ok v => cases v with
      | float q => rw [hq] at h; cases h
      | int t => rw [hq] at h; exact collected_returned h
  | average nav c =>
    obtain rfl : s = ⟨_, c⟩ := by simpa [Chain.sources] using hs
    unfold Chain.resultWith at h
    split at h
    · cases h
    · exact through_returned h
  | mixer c d =>
    unfold Chain.resultWith at h
    by_cases hd : (d.resultWith privateCache num).exit = .returned
    · rw [if_pos hd] at h
      have hs' : s = ⟨_, c⟩ ∨ s = ⟨_, d⟩ := by simpa [Chain.sources] using hs
      rcases hs' with rfl | rfl
      · exact through_returned h
      · exact hd
    · rw [if_neg hd] at h
      exact absurd h hd
  | reverse junk c =>
    obtain rfl : s = ⟨_, c⟩ := by simpa [Chain.sources] using hs
    exact collected_returned h
  | calib factors c => obtain rfl : s = ⟨_, c⟩ := by simpa [Chain.sources] using hs
                       exact through_returned h
  | power c => obtain rfl : s = ⟨_, c⟩ := by simpa [Chain.sources] using hs
               exact through_returned h
  | channels weights c => obtain rfl : s = ⟨_, c⟩ := by simpa [Chain.sources] using hs
                          exact through_returned h
  | cumAverage c => obtain rfl : s = ⟨_, c⟩ := by simpa [Chain.sources] using hs
                    exact through_returned h
  | filter sos c => obtain rfl : s = ⟨_, c⟩ := by simpa [Chain.sources] using hs
                    exact through_returned h
  | cache mode history c => obtain rfl : s = ⟨_, c⟩ := by simpa [Chain.sources] using hs
                            exact through_returned h
  | write c => obtain rfl : s = ⟨_, c⟩ := by simpa [Chain.sources] using hs
               exact through_returned h

/-- The hypothesis of `C125_failures` is met by every chain of `C125_chain_partial`; a chain in which it is not: the selection of an empty range
of samples fails, and so do the objects behind. -/
example : ((Chain.power (Chain.mask 3 (some 2) [] (.samples [![(1 : ℚ)], ![2], ![3], ![4]]))).result 4).exit ≠ .returned := by
  intro h
  have := C125_failures _ 4 h ⟨_, Chain.mask 3 (some 2) [] (.samples [![(1 : ℚ)], ![2], ![3], ![4]])⟩ (by simp [Chain.sources])
  revert this
  decide +kernel

/-- **C125 is violated** by selecting samples, or zero phase filtering, behind an average: whatever the source, the block
size and the settings, nothing is delivered, because `Average` announces a number of samples that is not an `int`. -/
theorem C125_average_violated {n : ℕ} {c : Chain K n} {data : List (Fin n → K)} (h : Means c data) (nav : ℕ) (hnav : 0 < nav) (num : ℕ) :
    (∀ start stop invalid, (Chain.mask start stop invalid (.average nav c)).result num = ⟨[], .raised .typeError⟩) ∧
    ∀ filtfilt junk, (Chain.zeroPhase filtfilt junk (.average nav c)).result num = ⟨[], .raised .typeError⟩ := by
  have e : ∃ q, (Chain.average nav c).numSamples = .ok (.float q) := by
    obtain ⟨v, h1, -⟩ := C125_announced_partial h
    rw [Chain.numSamples, h1]
    cases v <;> simp [hnav.ne']
  obtain ⟨q, e⟩ := e
  constructor
  · intro start stop invalid
    rw [Chain.result, Chain.resultWith, e]
    rfl
  · intro ff junk
    rw [Chain.result, Chain.resultWith, e]
    rfl

/-- **C125 is violated** by `Mixer` with a shorter additional source: the number announced is that of the first source. -/
theorem C125_mixer_violated : ∃ (c d : Chain ℚ 1) (data other : List (Fin 1 → ℚ)), Means c data ∧ Means d other ∧
    (Chain.mixer c d).numSamples = .ok (.int 3) ∧ ((Chain.mixer c d).result 2).exit = .returned ∧
      ((Chain.mixer c d).result 2).blocks.flatten.length = 2 := by
  refine ⟨.samples [fun _ => 1, fun _ => 2, fun _ => 3], .samples [fun _ => 10, fun _ => 20], _, _, .samples _ (by simp), .samples _ (by simp),
    rfl, by decide +kernel, by decide +kernel⟩

/-! ### The hypotheses are met -/

/-- A chain of eight objects with a meaning. -/
example (h0 : CacheRun) (hh : 0 < h0.num) : ∃ data, data ≠ [] ∧ Means (K := ℚ) (.average 2 (.reverse (fun _ _ => 99) (.cache .individual [h0]
    (.mixer (.power (.mask 1 none [1] (.samples [![1, 2], ![3, 4], ![5, 6], ![7, 8], ![9, 10]])))
      (.cumAverage (.samples [fun _ => 1, fun _ => 2, fun _ => 3, fun _ => 4])))))) data := by
  refine ⟨_, ?_, .average (.reverse (.cache (.mixer (.power (.mask (.samples _ (by simp)) trivial ?_ ?_)) (.cumAverage (.samples _ (by simp))) ?_) ?_ ?_) ?_) two_pos⟩
  · decide +kernel
  · decide +kernel
  · decide +kernel
  · decide +kernel
  · decide +kernel
  · simpa using hh
  · decide +kernel

/-- A source of three samples and two channels, averaged over two samples, has a meaning. -/
private def chainMeans : Σ' data, Means (K := ℚ) (.average 2 (.samples [![1, 2], ![3, 4], ![5, 6]])) data :=
  ⟨_, .average (.samples [![1, 2], ![3, 4], ![5, 6]] (by simp)) (by norm_num)⟩

/-- The hypotheses of `C125_announced_partial`, `C125_chain_partial`, `C125_block_size_partial`, `C125_means_unique` are met: -/
example := And.intro (C125_announced_partial chainMeans.2) (And.intro (C125_chain_partial chainMeans.2 2 (by decide))
  (And.intro (C125_block_size_partial chainMeans.2 2 3 (by decide) (by decide)) (C125_means_unique chainMeans.2 chainMeans.2)))

end Acoular
