import Verif.Model.Signals
import Verif.Spec.Stream
import Verif.Lemmas.Stream
import Mathlib.Tactic.Ring
import Mathlib.Tactic.Linarith
import Mathlib.Algebra.BigOperators.Group.List.Basic
import Mathlib.Algebra.BigOperators.Group.Finset.Basic
import Mathlib.Data.Rat.Defs
import Mathlib.Algebra.Group.Action.Defs
import Mathlib.Algebra.Group.Action.Opposite

/-!
# Property theorems: signal generators (C52, C72)
-/

set_option linter.unusedSectionVars false

namespace Acoular

open Spec

section
variable {K : Type*}

private theorem assign_end (pre mid vals tail : List K) (h : vals.length = mid.length) :
    assignSlice (pre ++ mid ++ tail) pre.length (pre.length + mid.length) vals = .ok (pre ++ vals ++ tail) := by
  unfold assignSlice
  have h1 : min (pre.length + mid.length) (pre ++ mid ++ tail).length = pre.length + mid.length := by
    rw [List.length_append, List.length_append]; omega
  simp only [h1]
  rw [show min pre.length (pre.length + mid.length) = pre.length by omega,
    show max pre.length (pre.length + mid.length) = pre.length + mid.length by omega, if_pos (by omega)]
  congr 1
  have e1 : (pre ++ mid ++ tail).take pre.length = pre := by rw [List.append_assoc, List.take_left]
  have e2 : (pre ++ mid ++ tail).drop (pre.length + mid.length) = tail := by
    rw [← List.length_append, List.drop_left]
  rw [e1, e2]

private theorem assign_zeros [Zero K] (done vals : List K) (n : ℕ) (h : done.length + vals.length ≤ n) :
    assignSlice (done ++ List.replicate (n - done.length) (0 : K)) done.length (done.length + vals.length) vals =
      .ok ((done ++ vals) ++ List.replicate (n - (done ++ vals).length) 0) := by
  have := assign_end done (List.replicate vals.length (0 : K)) vals (List.replicate (n - (done ++ vals).length) 0) (by simp)
  rw [List.append_assoc, ← List.replicate_add, List.length_replicate] at this
  rw [show n - done.length = vals.length + (n - (done ++ vals).length) by rw [List.length_append]; omega]
  exact this

variable [Field K]

/-- After the loop the track is the data (cut at `nums`), then zeros; `stop` is the number of data unless the loop was
left, in which case it is at least `nums`. -/
private theorem genericFill_eq (block nums : ℕ) (_hb : 0 < block) (bs : List (List K)) :
    ∀ (i : ℕ) (done : List K) (stop : Option ℕ), done.length = block * i → done.length ≤ nums →
      (∀ b ∈ bs.dropLast, b.length = block) → (∀ b, bs.getLast? = some b → b.length ≤ block) → 
      ∃ stop', genericFill block nums i bs (done ++ List.replicate (nums - done.length) 0) stop =
          .ok (((done ++ bs.flatten).take nums) ++ List.replicate (nums - (done ++ bs.flatten).length) 0, stop') ∧
        (bs = [] → stop' = stop) ∧
        (bs ≠ [] → ∃ s, stop' = some s ∧ ((s < nums → s = (done ++ bs.flatten).length) ∧ ((done ++ bs.flatten).length < nums → s = (done ++ bs.flatten).length))) := by
  induction bs with
  | nil =>
    intro i done stop hd hn _ _
    refine ⟨stop, ?_, fun _ => rfl, fun h => absurd rfl h⟩
    rw [genericFill, List.flatten_nil, List.append_nil, List.take_of_length_le hn]
  | cons temp l ih =>
    intro i done stop hd hn hfull hlast
    rw [genericFill, ← hd]
    by_cases hgt : nums > done.length + temp.length
    · rw [if_pos hgt, assign_zeros done temp nums (by omega)]
      simp only
      by_cases hl : l = []
      · subst hl
        refine ⟨some (done.length + temp.length), ?_, fun h => by simp at h, fun _ => ⟨_, rfl, ?_⟩⟩
        · rw [genericFill]
          simp only [List.flatten_cons, List.flatten_nil, List.append_nil]
          rw [List.take_of_length_le (by rw [List.length_append]; omega)]
        · simp
      · have htl : temp.length = block := hfull temp (by
          obtain ⟨y, ys, rfl⟩ := List.exists_cons_of_ne_nil hl
          simp)
        obtain ⟨s', h1, h2, h3⟩ := ih (i + 1) (done ++ temp) (some (done.length + temp.length))
          (by rw [List.length_append, hd, htl]; ring) (by rw [List.length_append]; omega)
          (by
            intro b hb'
            apply hfull
            obtain ⟨y, ys, rfl⟩ := List.exists_cons_of_ne_nil hl
            rw [List.dropLast_cons_of_ne_nil (by simp)]
            exact List.mem_cons_of_mem _ hb')
          (by
            intro b hb'
            apply hlast
            obtain ⟨y, ys, rfl⟩ := List.exists_cons_of_ne_nil hl
            rw [List.getLast?_cons_cons]
            exact hb')
        refine ⟨s', ?_, fun h => by simp at h, fun _ => ?_⟩
        · rw [h1, List.flatten_cons, ← List.append_assoc]
        · obtain ⟨s, e1, e2⟩ := h3 hl
          exact ⟨s, e1, by rw [List.flatten_cons, ← List.append_assoc]; exact e2⟩
    · rw [if_neg hgt]
      have hv : (temp.take (nums - done.length)).length = nums - done.length := by rw [List.length_take]; omega
      have := assign_zeros done (temp.take (nums - done.length)) nums (by omega)
      rw [hv, show done.length + (nums - done.length) = nums by omega] at this
      rw [this]
      refine ⟨some (done.length + temp.length), ?_, fun h => by simp at h, fun _ => ⟨_, rfl, ?_⟩⟩
      · simp only [List.flatten_cons]
        have h1 : (done ++ temp.take (nums - done.length)).length = nums := by rw [List.length_append, hv]; omega
        rw [h1]
        have h2 : (done ++ (temp ++ l.flatten)).take nums = done ++ temp.take (nums - done.length) := by
          rw [List.take_append, List.take_of_length_le hn, List.take_append,
            show nums - done.length - temp.length = 0 by omega]
          simp
        rw [h2]
        have h3 : nums - (done ++ (temp ++ l.flatten)).length = 0 := by
          rw [List.length_append, List.length_append]; omega
        rw [h3, Nat.sub_self]
      · have : (done ++ (temp :: l).flatten).length ≥ done.length + temp.length := by
          rw [List.flatten_cons, List.length_append, List.length_append]; omega
        constructor <;> intro h <;> omega

/-- The signal is `nums` values long; without looping: the data, then zeros. -/
theorem C52_no_loop (amplitude : K) (nums block : ℕ) (hb : 0 < block) (data : List K) (blocks : List (List K))
    (h : IsBlocking block data blocks) :
    ∃ s, genericSignal amplitude false nums block blocks = .ok s ∧ s.length = nums ∧
      ∀ k < nums, s[k]? = some (amplitude * data.getD k 0) := by
  obtain ⟨st, h1, -, -⟩ := genericFill_eq block nums hb blocks 0 [] none (by simp) (by simp) h.full
    (fun b hb' => (h.last b hb').2)
  simp only [List.nil_append, List.length_nil, Nat.sub_zero] at h1
  rw [h.cover] at h1
  unfold genericSignal
  rw [h1]
  refine ⟨_, rfl, by simp; omega, ?_⟩
  intro k hk
  rw [List.getElem?_map, List.getElem?_append, List.length_take, List.getElem?_take, List.getD_eq_getElem?_getD]
  by_cases hkd : k < data.length
  · rw [if_pos (by omega), if_pos hk, List.getElem?_eq_getElem hkd]; rfl
  · rw [if_neg (by omega), List.getElem?_replicate, if_pos (by omega), List.getElem?_eq_none (by omega)]; rfl

/-- The hypotheses of `C52_no_loop` are met: -/
example := C52_no_loop (2 : ℚ) 5 2 (by decide) [1, 2, 3] _ (isBlocking_chunks (by decide) _)

private theorem getElem_tile (l : List K) (_hl : 0 < l.length) (c k : ℕ) (hk : k < c * l.length) :
    (List.replicate c l).flatten[k]? = l[k % l.length]? := by
  induction c generalizing k with
  | zero => simp at hk
  | succ c ih =>
    rw [List.replicate_succ, List.flatten_cons, List.getElem?_append]
    by_cases h : k < l.length
    · rw [if_pos h, Nat.mod_eq_of_lt h]
    · have hk' : k - l.length < c * l.length := by rw [Nat.succ_mul] at hk; omega
      rw [if_neg h, ih _ hk', Nat.mod_eq_sub_mod (not_lt.1 h)]

/-- With looping, value `k` is the amplitude times value `k mod N` of the source, `N` its number of samples. -/
theorem C52_loop (amplitude : K) (nums block : ℕ) (hb : 0 < block) (data : List K) (hd : data ≠ []) (blocks : List (List K))
    (h : IsBlocking block data blocks) :
    ∃ s, genericSignal amplitude true nums block blocks = .ok s ∧ s.length = nums ∧
      ∀ k < nums, s[k]? = some (amplitude * data.getD (k % data.length) 0) := by
  have hdl : 0 < data.length := List.length_pos_of_ne_nil hd
  have hbs : blocks ≠ [] := by rintro rfl; exact hd h.cover.symm
  obtain ⟨st, h1, -, h3⟩ := genericFill_eq block nums hb blocks 0 [] none (by simp) (by simp) h.full
    (fun b hb' => (h.last b hb').2)
  obtain ⟨stop, rfl, hs1, hs2⟩ := h3 hbs
  simp only [List.nil_append, List.length_nil, Nat.sub_zero] at h1 hs1 hs2
  rw [h.cover] at h1 hs1 hs2
  unfold genericSignal
  rw [h1]
  simp only
  by_cases hgt : nums > stop
  · rw [if_pos hgt]
    have hst : stop = data.length := hs1 hgt
    subst hst
    set N := data.length with hN
    have htk : data.take nums = data := List.take_of_length_le (by omega)
    rw [htk]
    have hq : 0 < nums / N := Nat.div_pos hgt.le hdl
    have hdm := Nat.div_add_mod nums N
    have hml := Nat.mod_lt nums hdl
    -- after the full copies
    have t1 : (if nums / N > 1 then
            assignSlice (data ++ List.replicate (nums - N) 0) N (N * (nums / N))
              (List.replicate (nums / N - 1) ((data ++ List.replicate (nums - N) 0).take N)).flatten
          else .ok (data ++ List.replicate (nums - N) 0)) =
        .ok ((List.replicate (nums / N) data).flatten ++ List.replicate (nums % N) 0) := by
      have htake : (data ++ List.replicate (nums - N) (0 : K)).take N = data := by rw [hN, List.take_left]
      rw [htake]
      have hlen : ((List.replicate (nums / N - 1) data).flatten).length = N * (nums / N) - N := by
        rw [List.length_flatten, List.map_replicate, List.sum_replicate, smul_eq_mul, Nat.sub_mul, Nat.one_mul, Nat.mul_comm]
      have hrep : List.replicate (nums / N) data = data :: List.replicate (nums / N - 1) data := by
        rw [← List.replicate_succ]; congr 1; omega
      have hNle : N ≤ N * (nums / N) := Nat.le_mul_of_pos_right N hq
      by_cases h1 : nums / N > 1
      · rw [if_pos h1]
        have := assign_zeros data (List.replicate (nums / N - 1) data).flatten nums (by rw [hlen]; omega)
        rw [hlen, ← hN, show N + (N * (nums / N) - N) = N * (nums / N) by omega] at this
        rw [this, hrep, List.flatten_cons]
        congr 3
        rw [List.length_append, hlen]
        omega
      · rw [if_neg h1]
        have h1' : nums / N = 1 := by omega
        rw [h1'] at hdm ⊢
        simp only [List.replicate_one, List.flatten_cons, List.flatten_nil, List.append_nil]
        congr 3
        omega
    rw [t1]
    simp only
    have hfl : ((List.replicate (nums / N) data).flatten).length = N * (nums / N) := by
      rw [List.length_flatten, List.map_replicate, List.sum_replicate, smul_eq_mul, Nat.mul_comm]
    have t2 : (if nums % N > 0 then
          assignSlice ((List.replicate (nums / N) data).flatten ++ List.replicate (nums % N) 0) (N * (nums / N)) nums
            (((List.replicate (nums / N) data).flatten ++ List.replicate (nums % N) 0).take (nums % N))
        else .ok ((List.replicate (nums / N) data).flatten ++ List.replicate (nums % N) 0)) =
        .ok ((List.replicate (nums / N) data).flatten ++ data.take (nums % N)) := by
      by_cases h0 : nums % N > 0
      · rw [if_pos h0]
        have hNle : N ≤ N * (nums / N) := Nat.le_mul_of_pos_right N hq
        have htake : ((List.replicate (nums / N) data).flatten ++ List.replicate (nums % N) (0 : K)).take (nums % N) =
            data.take (nums % N) := by
          rw [List.take_append_of_le_length (by rw [hfl]; omega),
            show nums / N = (nums / N - 1) + 1 by omega, List.replicate_succ, List.flatten_cons,
            List.take_append_of_le_length (by omega)]
        rw [htake]
        have := assign_zeros (List.replicate (nums / N) data).flatten (data.take (nums % N)) nums
          (by rw [hfl, List.length_take]; omega)
        rw [hfl, List.length_take, show min (nums % N) data.length = nums % N by omega, hdm] at this
        rw [show nums - N * (nums / N) = nums % N by omega] at this
        rw [this]
        congr 1
        rw [List.length_append, hfl, List.length_take, show nums - (N * (nums / N) + min (nums % N) data.length) = 0 by omega]
        simp
      · rw [if_neg h0, show nums % N = 0 by omega]
        simp
    rw [t2]
    refine ⟨_, rfl, ?_, ?_⟩
    · rw [List.length_map, List.length_append, hfl, List.length_take]; omega
    · intro k hk
      rw [List.getElem?_map, List.getElem?_append, hfl, List.getD_eq_getElem?_getD]
      have hkm := Nat.mod_lt k hdl
      by_cases hk1 : k < N * (nums / N)
      · rw [if_pos hk1, getElem_tile data hdl _ _ (by rw [Nat.mul_comm]; exact hk1), List.getElem?_eq_getElem hkm]; rfl
      · rw [if_neg hk1, List.getElem?_take, if_pos (by omega)]
        have : k % N = k - N * (nums / N) := by
          conv_lhs => rw [show k = (k - N * (nums / N)) + N * (nums / N) by omega]
          rw [Nat.add_mul_mod_self_left, Nat.mod_eq_of_lt (by omega)]
        rw [← this, List.getElem?_eq_getElem hkm]
        rfl
  · rw [if_neg hgt]
    have hge : nums ≤ data.length := by
      by_contra hc
      have := hs2 (by omega)
      omega
    rw [show nums - data.length = 0 by omega, List.replicate_zero, List.append_nil]
    refine ⟨_, rfl, by rw [List.length_map, List.length_take]; omega, ?_⟩
    intro k hk
    rw [List.getElem?_map, List.getElem?_take, if_pos hk, Nat.mod_eq_of_lt (by omega), List.getD_eq_getElem?_getD,
      List.getElem?_eq_getElem (by omega)]
    rfl

/-- The hypotheses of `C52_loop` are met: -/
example := C52_loop (2 : ℚ) 7 2 (by decide) [1, 2, 3] (by simp) _ (isBlocking_chunks (by decide) _)

/-- By default as many samples as the source has: the signal is the source, scaled. -/
theorem C52_default (amplitude : K) (loop : Bool) (block : ℕ) (hb : 0 < block) (data : List K) (hd : data ≠ []) (blocks : List (List K))
    (h : IsBlocking block data blocks) :
    genericSignal amplitude loop (genericNumSamples 0 data.length) block blocks = .ok (data.map (amplitude * ·)) := by
  have hn : genericNumSamples 0 data.length = data.length := by simp [genericNumSamples]
  rw [hn]
  have fin : ∀ s : List K, s.length = data.length → (∀ k < data.length, s[k]? = some (amplitude * data.getD k 0)) →
      s = data.map (amplitude * ·) := by
    intro s hl hs
    apply List.ext_getElem?
    intro k
    rcases Nat.lt_or_ge k data.length with hk | hk
    · rw [hs k hk, List.getElem?_map, List.getD_eq_getElem?_getD, List.getElem?_eq_getElem hk]; rfl
    · rw [List.getElem?_eq_none (by omega), List.getElem?_eq_none (by simpa using hk)]
  cases loop with
  | false =>
    obtain ⟨s, h1, h2, h3⟩ := C52_no_loop amplitude data.length block hb data blocks h
    rw [h1, fin s h2 h3]
  | true =>
    obtain ⟨s, h1, h2, h3⟩ := C52_loop amplitude data.length block hb data hd blocks h
    rw [h1, fin s h2 fun k hk => by rw [h3 k hk, Nat.mod_eq_of_lt hk]]

/-- The hypotheses of `C52_default` are met: -/
example := C52_default (2 : ℚ) true 2 (by decide) [1, 2, 3] (by simp) _ (isBlocking_chunks (by decide) _)

/-- If a number of samples has been set, the signal has that number of samples, with and without loop. -/
theorem C52_num_samples (amplitude : K) (loop : Bool) (nums : ℕ) (hn0 : nums ≠ 0) (block : ℕ) (hb : 0 < block) (data : List K)
    (hd : data ≠ []) (blocks : List (List K)) (h : IsBlocking block data blocks) :
    ∃ s, genericSignal amplitude loop (genericNumSamples nums data.length) block blocks = .ok s ∧ s.length = nums := by
  have hn : genericNumSamples nums data.length = nums := by simp [genericNumSamples, hn0]
  rw [hn]
  cases loop with
  | false =>
    obtain ⟨s, h1, h2, _⟩ := C52_no_loop amplitude nums block hb data blocks h
    exact ⟨s, h1, h2⟩
  | true =>
    obtain ⟨s, h1, h2, _⟩ := C52_loop amplitude nums block hb data hd blocks h
    exact ⟨s, h1, h2⟩

example : IsBlocking 2 [(1 : ℚ), 2, 3] [[1, 2], [3]] := by
  refine ⟨rfl, ?_, ?_⟩ <;> simp

/-- A source without samples makes a looped signal fail with UnboundLocalError. -/
theorem C52_empty_source_violated (amplitude : K) (nums block : ℕ) :
    genericSignal amplitude true nums block [] = .error .unboundLocalError := by
  simp [genericSignal, genericFill]

/-! ### Noise and sine -/

/-- White noise, sine: `num_samples` values given by the documented formulas. -/
theorem C72_white_sine (a freq fs : K) (draw : ℕ → K) (sinAt : K → K) (nums : ℕ) :
    (whiteNoise a draw nums).length = nums ∧ (∀ k < nums, (whiteNoise a draw nums)[k]? = some (a * draw k)) ∧
    (sineSignal a freq fs sinAt nums).length = nums ∧
    ∀ k < nums, (sineSignal a freq fs sinAt nums)[k]? = some (a * sinAt (freq * (k / fs))) := by
  unfold whiteNoise sineSignal
  refine ⟨by simp, ?_, by simp, ?_⟩ <;> intro k hk <;> rw [List.getElem?_map, List.getElem?_range hk] <;> rfl

/-- Filtered white noise: `num_samples` values, the filter output advanced by the group delay (half the number of coefficients
less one; between two whole numbers the even one). -/
theorem C72_filtered (rms : K) (draw : ℕ → K) (filt : List K → List K) (hf : ∀ l, (filt l).length = l.length)
    (ntaps nums : ℕ) :
    ∃ d, (2 * d ≤ ntaps ∧ ntaps ≤ 2 * d + 2 ∧ (ntaps % 2 = 1 → ntaps = 2 * d + 1) ∧ (ntaps % 2 = 0 → d % 2 = 0)) ∧ (filteredNoise rms draw filt ntaps nums).length = nums ∧
      ∀ k, (filteredNoise rms draw filt ntaps nums)[k]? = (filt (whiteNoise rms draw (nums + d)))[d + k]? := by
  refine ⟨roundHalf (ntaps - 1), ?_, ?_, ?_⟩
  · unfold roundHalf; split
    · omega
    · split <;> omega
  · unfold filteredNoise
    simp only
    rw [List.length_drop, hf]
    simp [whiteNoise]
  · intro k
    unfold filteredNoise
    simp only
    rw [List.getElem?_drop]

/-- The hypotheses of `C72_filtered` are met: -/
example := C72_filtered (2 : ℚ) (fun k => k) List.reverse (fun _ => List.length_reverse) 65 100

private theorem getElem_repeatEach (v : List K) (d : ℕ) (hd : 0 < d) (k : ℕ) :
    (repeatEach v d)[k]? = v[k / d]? ∧ (repeatEach v d).length = v.length * d := by
  induction v generalizing k with
  | nil => simp [repeatEach]
  | cons x v ih =>
    have hcons : repeatEach (x :: v) d = List.replicate d x ++ repeatEach v d := by simp [repeatEach]
    rw [hcons]
    constructor
    · rw [List.getElem?_append, List.length_replicate]
      by_cases h : k < d
      · rw [if_pos h, List.getElem?_replicate, if_pos h, Nat.div_eq_of_lt h]; rfl
      · rw [if_neg h, (ih (k - d)).1]
        have : k / d = (k - d) / d + 1 := by
          rw [← Nat.add_div_right _ hd]; congr 1; omega
        rw [this]; rfl
    · rw [List.length_append, List.length_replicate, (ih 0).2, List.length_cons]; ring

/-- Pink noise: sample `k` is the (scaled) sum of white noise and, for every octave `j`, a noise that changes every
`2^(j+1)` samples, shifted by `2^j - 1`.  It has `num_samples` values for every depth. -/
theorem C72_pink (scale : ℕ → K) (draw : ℕ → ℕ → K) (nums depth : ℕ) (hn : 0 < nums) :
    ∃ d s, d ≤ depth ∧ 2 ^ d ≤ nums ∧ (2 ^ depth ≤ nums → d = depth) ∧
      pinkNoise scale draw nums depth = .ok s ∧ s.length = nums ∧
      ∀ k < nums, s[k]? = some (scale d * (draw 0 k + ∑ j ∈ Finset.range d,
        if 2 ^ j - 1 ≤ k then draw (j + 1) ((k - (2 ^ j - 1)) / 2 ^ (j + 1)) else 0)) := by
  have step : ∀ (j : ℕ) (s : List K), s.length = nums → ∃ s', pinkStep draw nums j s = .ok s' ∧ s'.length = nums ∧
      ∀ k < nums, s'[k]? = s[k]?.map fun x => x +
        if 2 ^ j - 1 ≤ k then draw (j + 1) ((k - (2 ^ j - 1)) / 2 ^ (j + 1)) else 0 := by
    intro j s hs
    have hdp : 0 < 2 ^ (j + 1) := Nat.two_pow_pos _
    set rep := repeatEach ((List.range (nums / 2 ^ (j + 1) + 1)).map (draw (j + 1))) (2 ^ (j + 1)) with hrep
    have hrl : nums ≤ rep.length := by
      rw [hrep, (getElem_repeatEach _ _ hdp 0).2, List.length_map, List.length_range]
      have := Nat.lt_div_mul_add hdp (a := nums)
      rw [Nat.succ_mul]
      omega
    have hlen : (rep.take (nums - (2 ^ j - 1))).length = (s.drop (2 ^ j - 1)).length := by
      rw [List.length_take, List.length_drop, hs]; omega
    unfold pinkStep
    simp only
    rw [if_pos hlen]
    refine ⟨_, rfl, ?_, ?_⟩
    · rw [List.length_append, List.length_take, List.length_zipWith, hlen, List.length_drop]; omega
    · intro k hk
      rw [List.getElem?_append, List.length_take]
      by_cases hk1 : 2 ^ j - 1 ≤ k
      · rw [if_neg (by omega), if_pos hk1, List.getElem?_zipWith, List.getElem?_drop, List.getElem?_take,
          if_pos (by omega), (getElem_repeatEach _ _ hdp _).1, List.getElem?_map]
        have hm : min (2 ^ j - 1) s.length = 2 ^ j - 1 := by omega
        rw [hm, show 2 ^ j - 1 + (k - (2 ^ j - 1)) = k by omega]
        have hq : (k - (2 ^ j - 1)) / 2 ^ (j + 1) < nums / 2 ^ (j + 1) + 1 :=
          Nat.lt_succ_of_le (Nat.div_le_div_right (by omega))
        rw [List.getElem?_range hq, List.getElem?_eq_getElem (by omega)]
        rfl
      · rw [if_pos (by omega), if_neg hk1, List.getElem?_take, if_pos (by omega)]
        simp
  have loop : ∀ (d j : ℕ) (s : List K), s.length = nums → ∃ s', pinkLoop draw nums d j s = .ok s' ∧ s'.length = nums ∧
      ∀ k < nums, s'[k]? = s[k]?.map fun x => x + ∑ i ∈ Finset.range d,
        if 2 ^ (j + i) - 1 ≤ k then draw (j + i + 1) ((k - (2 ^ (j + i) - 1)) / 2 ^ (j + i + 1)) else 0 := by
    intro d
    induction d with
    | zero => intro j s hs; exact ⟨s, rfl, hs, fun k _ => by simp⟩
    | succ d ih =>
      intro j s hs
      obtain ⟨s1, h1, h2, h3⟩ := step j s hs
      obtain ⟨s2, k1, k2, k3⟩ := ih (j + 1) s1 h2
      refine ⟨s2, by rw [pinkLoop, h1]; exact k1, k2, fun k hk => ?_⟩
      rw [k3 k hk, h3 k hk, Option.map_map]
      congr 1
      funext x
      simp only [Function.comp_apply]
      rw [Finset.sum_range_succ', add_comm (∑ _ ∈ _, _), ← add_assoc]
      simp only [Nat.add_zero]
      congr 1
      apply Finset.sum_congr rfl
      intro i _
      rw [show j + 1 + i = j + (i + 1) by omega]
  unfold pinkNoise
  simp only
  set d := if depth > Nat.log 2 nums then Nat.log 2 nums else depth with hd
  obtain ⟨s, h1, h2, h3⟩ := loop d 0 ((List.range nums).map (draw 0)) (by simp)
  have hlog : 2 ^ Nat.log 2 nums ≤ nums := Nat.pow_log_le_self 2 hn.ne'
  refine ⟨d, s.map (scale d * ·), ?_, ?_, ?_, ?_, by simpa using h2, ?_⟩
  · rw [hd]; split <;> omega
  · rw [hd]; split
    · exact hlog
    · exact (Nat.pow_le_pow_right (by omega) (by omega)).trans hlog
  · intro h
    rw [hd, if_neg]
    have := Nat.le_log_of_pow_le (by omega) h
    omega
  · rw [h1]
  · intro k hk
    rw [List.getElem?_map, h3 k hk, List.getElem?_map, List.getElem?_range hk]
    simp

/-- The hypotheses of `C72_pink` are met: -/
example := C72_pink (fun _ => (1 : ℚ)) (fun j k => j + k) 100 16 (by decide)

end

end Acoular
