import Mathlib.Tactic.Module
import Mathlib.Tactic.FieldSimp
import Mathlib.Algebra.Module.Rat
import Verif.Model.Average
import Verif.Model.Stream
import Verif.Spec.Average
import Verif.Lemmas.StreamModel

/-!
# Property theorems: averages and row-wise blocks (C03, C09, C58)
-/

namespace Acoular
open Spec

section
variable {K V : Type*} [Field K] [AddCommGroup V] [Module K V]

private theorem groups_eq (nav : Nat) (hnav : 0 < nav) (temp : List V) :
    (reshapeGroups (temp.length / nav) nav temp).map (rowMean K) = groupAverages K nav temp := by
  unfold reshapeGroups groupAverages
  rw [List.map_map]
  apply List.map_congr_left
  intro j hj
  rw [List.mem_range] at hj
  have h1 : (j + 1) * nav ≤ temp.length / nav * nav := Nat.mul_le_mul_right _ hj
  have h2 : temp.length / nav * nav ≤ temp.length := Nat.div_mul_le_self _ _
  rw [Nat.add_mul, Nat.one_mul] at h1
  simp only [Function.comp, rowMean, slice]
  have hs : ((temp.take (temp.length / nav * nav)).take (j * nav + nav)).drop (j * nav)
      = (temp.drop (j * nav)).take nav := by
    rw [List.take_take, Nat.min_eq_left h1, List.drop_take]
    congr 1
    omega
  rw [hs, List.length_take, List.length_drop, Nat.min_eq_left (by omega)]

/-- **C03** `Average.result(num)`: if the source honours the block contract for the request
`num * num_per_average`, the output is the list of averages of consecutive groups of `num_per_average`
rows (an incomplete group at the end is dropped) cut into blocks of `num`; in particular the output does
not depend on how the data are split. -/
theorem C03_average (data : List V) (blocks : List (List V)) (num nav : Nat) (hn : 0 < num) (hnav : 0 < nav)
    (hsrc : IsBlocking (num * nav) data blocks) :
    IsBlocking num (groupAverages K nav data) (Average.result K nav blocks) := by
  have hnn : 0 < num * nav := Nat.mul_pos hn hnav
  have hb := (isBlocking_iff hnn).1 hsrc
  subst hb
  clear hsrc
  rw [isBlocking_iff hn]
  induction data using chunk_induction hnn with
  | nil => simp [groupAverages, chunks_nil, Average.result]
  | step data hne ih =>
    rw [chunks_step hnn hne]
    unfold Average.result at ih ⊢
    rw [List.filterMap_cons]
    simp only
    rw [groups_eq nav hnav, ih]
    by_cases hlen : data.length ≤ num * nav
    · rw [List.take_of_length_le hlen, List.drop_eq_nil_of_le hlen]
      by_cases h0 : data.length / nav > 0
      · rw [if_pos h0]
        have hne' : groupAverages K nav data ≠ [] := by
          intro h
          have := congrArg List.length h
          simp only [groupAverages, List.length_map, List.length_range, List.length_nil] at this
          omega
        have hle : (groupAverages K nav data).length ≤ num := by
          simp only [groupAverages, List.length_map, List.length_range]
          exact Nat.div_le_of_le_mul (by rw [Nat.mul_comm]; exact hlen)
        rw [chunks_step hn hne', List.take_of_length_le hle, List.drop_eq_nil_of_le hle]
        simp [groupAverages, chunks_nil]
      · rw [if_neg h0]
        have : data.length / nav = 0 := Nat.eq_zero_of_not_pos h0
        simp [groupAverages, this, chunks_nil]
    · have hlt : num * nav < data.length := by omega
      have hl : (data.take (num * nav)).length / nav = num := by
        rw [List.length_take, Nat.min_eq_left (by omega), Nat.mul_div_cancel _ hnav]
      rw [hl, if_pos hn]
      have hN : num ≤ data.length / nav := by
        rw [Nat.le_div_iff_mul_le hnav]; omega
      have hsplit : groupAverages K nav data
          = groupAverages K nav (data.take (num * nav)) ++ groupAverages K nav (data.drop (num * nav)) := by
        unfold groupAverages
        rw [hl, List.length_drop]
        have hd : (data.length - num * nav) / nav = data.length / nav - num := by
          rw [Nat.mul_comm, Nat.sub_mul_div]
        rw [hd]
        conv_lhs => rw [show data.length / nav = num + (data.length / nav - num) by omega, List.range_add,
          List.map_append, List.map_map]
        congr 1
        · apply List.map_congr_left
          intro j hj
          rw [List.mem_range] at hj
          have h1 : (j + 1) * nav ≤ num * nav := Nat.mul_le_mul_right _ hj
          rw [Nat.add_mul, Nat.one_mul] at h1
          rw [List.drop_take, List.take_take, Nat.min_eq_left (by omega)]
        · apply List.map_congr_left
          intro j _
          simp only [Function.comp]
          rw [List.drop_drop, Nat.add_mul]
      have hga : (groupAverages K nav (data.take (num * nav))).length = num := by
        simp only [groupAverages, List.length_map, List.length_range]; exact hl
      rw [hsplit, chunks_append_full hn hga]

/-- **C03** number of rows delivered: `floor(N / num_per_average)`; the attribute `num_samples` agrees
exactly if `num_per_average` divides `N` (otherwise it is not an integer). -/
theorem C03_average_num_samples [CharZero K] (data : List V) (blocks : List (List V)) (num nav : Nat)
    (hn : 0 < num) (hnav : 0 < nav) (hsrc : IsBlocking (num * nav) data blocks) :
    (Average.result K nav blocks).flatten.length = data.length / nav ∧
    (((Average.result K nav blocks).flatten.length : K) = Average.numSamples K data.length nav ↔
      nav ∣ data.length) := by
  have h := (C03_average (K := K) data blocks num nav hn hnav hsrc).cover
  have hl : (Average.result K nav blocks).flatten.length = data.length / nav := by
    rw [h]; simp [groupAverages]
  refine ⟨hl, ?_⟩
  rw [hl, Average.numSamples]
  have hnK : (nav : K) ≠ 0 := by exact_mod_cast hnav.ne'
  rw [eq_div_iff hnK]
  constructor
  · intro h
    have : data.length / nav * nav = data.length := by exact_mod_cast h
    exact ⟨data.length / nav, by rw [Nat.mul_comm, this]⟩
  · intro h
    have := Nat.div_mul_cancel h
    exact_mod_cast this

/-- The hypotheses of `C03_average_num_samples` are met: -/
example := C03_average_num_samples (K := ℚ) (V := ℚ) [1, 3, 5, 7, 9, 11, 13] (chunks 4 _) 2 2 (by decide) (by decide) (isBlocking_chunks (by decide) _)

example : IsBlocking 2 (groupAverages ℚ 2 ([1, 3, 5, 7, 9, 11, 13] : List ℚ))
    (Average.result ℚ 2 [[1, 3, 5, 7], [9, 11, 13]]) :=
  C03_average (data := [1, 3, 5, 7, 9, 11, 13]) (blocks := [[1, 3, 5, 7], [9, 11, 13]]) 2 2 (by decide) (by decide)
    ((isBlocking_iff (by decide)).2 rfl)

private theorem cum_loop [CharZero K] (num : Nat) (hn : 0 < num) (pre data : List V) (accu : V)
    (hacc : (pre.length : K) • accu = pre.sum) :
    TimeCumAverage.loop K accu pre.length (chunks num data)
      = ⟨chunks num ((cumulativeAverages K (pre ++ data)).drop pre.length), .returned⟩ := by
  induction data using chunk_induction hn generalizing pre accu with
  | nil =>
    rw [chunks_nil, List.append_nil, List.drop_eq_nil_of_le (by simp [cumulativeAverages]), chunks_nil]
    rfl
  | step data hne ih =>
    rw [chunks_step hn hne, TimeCumAverage.loop]
    have hpos : 0 < (data.take num).length := by
      rw [List.length_take]
      have := List.length_pos_iff.mpr hne
      omega
    have hout : ((List.range (data.take num).length).map fun j =>
        ((pre.length + 1 + j : Nat) : K)⁻¹ • ((pre.length : K) • accu + ((cumsum (data.take num))[j]?).getD 0))
        = ((cumulativeAverages K (pre ++ data)).drop pre.length).take num := by
      apply List.ext_getElem
      · simp [cumulativeAverages]
      · intro j h1 h2
        simp only [List.length_map, List.length_range, List.length_take] at h1
        simp only [cumulativeAverages, cumsum, List.getElem_map, List.getElem_range, List.getElem_take,
          List.getElem_drop, hacc]
        have hj : j < (data.take num).length := by rw [List.length_take]; exact h1
        rw [List.getElem?_map, List.getElem?_range hj]
        simp only [Option.map_some, Option.getD_some]
        rw [show pre.length + 1 + j = pre.length + j + 1 by omega]
        congr 1
        have : (pre ++ data).take (pre.length + j + 1) = pre ++ data.take (j + 1) := by
          rw [List.take_append]
          rw [List.take_of_length_le (by omega)]
          congr 2; omega
        rw [this, List.sum_append, List.take_take, Nat.min_eq_left (by omega)]
    rw [hout]
    have hdrop : (cumulativeAverages K (pre ++ data)).drop pre.length ≠ [] := by
      intro h
      have := congrArg List.length h
      simp only [cumulativeAverages, List.length_drop, List.length_map, List.length_range, List.length_append,
        List.length_nil] at this
      have := List.length_pos_iff.mpr hne
      omega
    have hlen : (((cumulativeAverages K (pre ++ data)).drop pre.length).take num).length = (data.take num).length := by
      simp [cumulativeAverages]
    have hne' : ((cumulativeAverages K (pre ++ data)).drop pre.length).take num ≠ [] := by
      intro h; rw [h] at hlen; simp only [List.length_nil] at hlen; omega
    rw [List.getLast?_eq_some_getLast hne']
    simp only
    have hlast : (((cumulativeAverages K (pre ++ data)).drop pre.length).take num).getLast hne'
        = ((pre.length + (data.take num).length : Nat) : K)⁻¹ • (pre ++ data.take num).sum := by
      rw [List.getLast_eq_getElem]
      simp only [List.getElem_take, List.getElem_drop, cumulativeAverages, List.getElem_map, List.getElem_range]
      have e : pre.length + ((((List.range (pre ++ data).length).map fun n =>
          (((n + 1 : Nat) : K))⁻¹ • ((pre ++ data).take (n + 1)).sum).drop pre.length).take num).length - 1 + 1
          = pre.length + (data.take num).length := by
        have := hlen
        unfold cumulativeAverages at this
        omega
      rw [show pre.length + (((((List.range (pre ++ data).length).map fun n =>
          (((n + 1 : Nat) : K))⁻¹ • ((pre ++ data).take (n + 1)).sum).drop pre.length).take num).length - 1) + 1
          = pre.length + (data.take num).length by have := hlen; unfold cumulativeAverages at this; omega]
      congr 2
      rw [List.take_append, List.take_of_length_le (by omega), List.length_take]
      congr 1
      rw [show pre.length + min num data.length - pre.length = min num data.length by omega]
      rcases Nat.le_total num data.length with h | h
      · rw [Nat.min_eq_left h]
      · rw [Nat.min_eq_right h, List.take_of_length_le (le_refl _), List.take_of_length_le h]
    have hih := ih (pre ++ data.take num) ((((cumulativeAverages K (pre ++ data)).drop pre.length).take num).getLast hne')
      (by
        rw [hlast, List.length_append, smul_smul, mul_inv_cancel₀, one_smul]
        have : 0 < pre.length + (data.take num).length := by omega
        exact_mod_cast this.ne')
    rw [List.length_append] at hih
    rw [hih, chunks_step hn hdrop, List.drop_drop, List.append_assoc, List.take_append_drop, Trace.cons]
    congr 3
    rw [List.length_take]
    rcases Nat.le_total num data.length with h | h
    · rw [Nat.min_eq_left h]
    · rw [Nat.min_eq_right h, List.drop_eq_nil_of_le, List.drop_eq_nil_of_le]
      · simp [cumulativeAverages]; omega
      · simp [cumulativeAverages]

/-- **C09** `TimeCumAverage.result(num)`: for every source honouring the block contract the concatenated
output row `n` is the mean of rows `0..n` of the source, and the blocks honour the contract; the result
does not depend on the block size. -/
theorem C09_time_cum_average [CharZero K] (data : List V) (blocks : List (List V)) (num : Nat) (hn : 0 < num)
    (hsrc : IsBlocking num data blocks) :
    (TimeCumAverage.result K blocks).exit = .returned ∧
    IsBlocking num (cumulativeAverages K data) (TimeCumAverage.result K blocks).blocks := by
  have hb := (isBlocking_iff hn).1 hsrc
  subst hb
  have := cum_loop (K := K) num hn [] data 0 (by simp)
  unfold TimeCumAverage.result
  simp only [List.length_nil, List.nil_append, List.drop_zero] at this
  rw [this]
  exact ⟨rfl, isBlocking_chunks hn _⟩

example : IsBlocking 2 (cumulativeAverages ℚ ([1, 3, 5] : List ℚ))
    (TimeCumAverage.result ℚ [[(1 : ℚ), 3], [5]]).blocks :=
  (C09_time_cum_average (K := ℚ) [1, 3, 5] [[1, 3], [5]] 2 (by decide) ((isBlocking_iff (by decide)).2 rfl)).2

end

section
variable {K : Type*}

/-- **C58** `ChannelMixer`: the block contract with every row replaced by the weighted sum of its entries
(weights given per channel). -/
theorem C58_channel_mixer [CommRing K] (data : List (List K)) (blocks : List (List (List K))) (num numCh : Nat) (hn : 0 < num)
    (hrow : ∀ r ∈ data, r.length = numCh) (hsrc : IsBlocking num data blocks) (weights : List K) :
    (weights = [] →
      (ChannelMixer.result blocks numCh weights).exit = .returned ∧
      IsBlocking num (data.map fun row => [row.sum]) (ChannelMixer.result blocks numCh weights).blocks) ∧
    (∀ w, weights = [w] →
      (ChannelMixer.result blocks numCh weights).exit = .returned ∧
      IsBlocking num (data.map fun row => [w * row.sum]) (ChannelMixer.result blocks numCh weights).blocks) ∧
    (weights.length = numCh → weights ≠ [] →
      (ChannelMixer.result blocks numCh weights).exit = .returned ∧
      IsBlocking num (data.map fun row => [(List.zipWith (· * ·) weights row).sum])
        (ChannelMixer.result blocks numCh weights).blocks) ∧
    (weights ≠ [] → weights.length ≠ numCh → weights.length ≠ 1 →
      ChannelMixer.result blocks numCh weights = ⟨[], .raised .valueError⟩) := by
  refine ⟨?_, ?_, ?_, ?_⟩
  · rintro rfl
    unfold ChannelMixer.result
    simp only [List.length_nil, ne_eq, not_true_eq_false, false_and, if_false]
    refine ⟨trivial, ?_⟩
    exact IsBlocking.map hn _ hsrc
  · rintro w rfl
    unfold ChannelMixer.result
    simp only [List.length_singleton, ne_eq, not_true_eq_false, and_false, if_false]
    refine ⟨trivial, ?_⟩
    have := IsBlocking.map hn (fun row : List K => [(row.map (w * ·)).foldr (· + ·) 0]) hsrc
    have e : (data.map fun row : List K => [w * row.sum])
        = data.map (fun row : List K => [(row.map (w * ·)).foldr (· + ·) 0]) := by
      apply List.map_congr_left
      intro r _
      have := List.sum_map_mul_left r id w
      simp only [id_eq, List.map_id] at this
      rw [← this]
      rfl
    rw [e]
    exact this
  · intro h hne
    have h' : ¬ (weights.length ≠ 0 ∧ weights.length ≠ numCh ∧ weights.length ≠ 1) := by tauto
    unfold ChannelMixer.result
    simp only [if_neg h']
    refine ⟨trivial, ?_⟩
    match weights, hne with
    | [w], _ =>
      have := IsBlocking.map hn (fun row : List K => [(row.map (w * ·)).foldr (· + ·) 0]) hsrc
      have e : (data.map fun row : List K => [(List.zipWith (· * ·) [w] row).sum])
          = data.map (fun row : List K => [(row.map (w * ·)).foldr (· + ·) 0]) := by
        apply List.map_congr_left
        intro r hr
        have hl := hrow r hr
        rw [← h] at hl
        match r, hl with
        | [x], _ => simp
      rw [e]
      exact this
    | w :: w' :: ws, _ => exact IsBlocking.map hn _ hsrc
  · intro h1 h2 h3
    unfold ChannelMixer.result
    rw [if_pos ⟨by simpa using h1, h2, h3⟩]
    rfl

/-- The hypotheses of `C58_channel_mixer` are met: -/
example := C58_channel_mixer (K := ℤ) [[1, 10], [2, 20], [3, 30]] (chunks 2 _) 2 2 (by decide) (by decide) (isBlocking_chunks (by decide) _) [2, 5]

/-- **C58** `TimePower`: rows are squared entry by entry. -/
theorem C58_time_power [Mul K] (data : List (List K)) (blocks : List (List (List K))) (num : Nat)
    (hn : 0 < num) (hsrc : IsBlocking num data blocks) :
    (TimePower.result blocks).exit = .returned ∧
    IsBlocking num (data.map (List.map fun x => x * x)) (TimePower.result blocks).blocks :=
  ⟨rfl, IsBlocking.map hn _ hsrc⟩

/-- The hypotheses of `C58_time_power` are met: -/
example := C58_time_power (K := ℤ) [[1, 10], [2, 20], [3, 30]] (chunks 2 _) 2 (by decide) (isBlocking_chunks (by decide) _)

/-- **C58** `Calib`: rows are multiplied entry by entry with the factors of the valid channels, provided
their number equals the number of source channels; otherwise nothing is delivered. -/
theorem C58_calib [Mul K] (data : List (List K)) (blocks : List (List (List K))) (num numCh : Nat) (hn : 0 < num)
    (hsrc : IsBlocking num data blocks) (factors : List K) (invalid : List Int) (hch : 0 < numCh) :
    ((selectIdx (validChannel invalid) factors).length = numCh →
      (Calib.result blocks numCh factors invalid).exit = .returned ∧
      IsBlocking num (data.map fun row => List.zipWith (· * ·) row (selectIdx (validChannel invalid) factors))
        (Calib.result blocks numCh factors invalid).blocks) ∧
    ((selectIdx (validChannel invalid) factors).length ≠ numCh →
      (Calib.result blocks numCh factors invalid).blocks = [] ∧
      (Calib.result blocks numCh factors invalid).exit ≠ .returned) := by
  have hm : applyMask (channelMask invalid factors.length) factors = selectIdx (validChannel invalid) factors :=
    applyMask_eq ..
  constructor
  · intro h
    have hmask : channelMask invalid factors.length ≠ some [] := by
      intro e
      rw [← hm, e] at h
      simp [applyMask] at h
      omega
    unfold Calib.result
    simp only
    rw [if_neg hmask, hm, if_neg (by simpa using h)]
    exact ⟨rfl, IsBlocking.map hn _ hsrc⟩
  · intro h
    unfold Calib.result
    simp only
    split
    · simp [Trace.raise]
    · rw [hm, if_pos h]; simp [Trace.raise]

/-- The hypotheses of `C58_calib` are met: -/
example := C58_calib (K := ℤ) [[1, 10], [2, 20], [3, 30]] (chunks 2 _) 2 2 (by decide) (isBlocking_chunks (by decide) _) [10, 20, 30] [1] (by decide)

example : (Calib.result (K := Int) [[[1, 2], [3, 4]], [[5, 6]]] 2 [10, 20, 30] [1]).blocks
    = [[[10, 60], [30, 120]], [[50, 180]]] := by decide

end
end Acoular
