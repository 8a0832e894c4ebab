import Verif.Lemmas.TimeBeam
import Verif.Spec.TimeBeam
import Mathlib.Tactic.Ring
import Mathlib.Analysis.Real.Sqrt
import Mathlib.Tactic.FieldSimp
import Mathlib.Tactic.Linarith
import Mathlib.Algebra.Order.Floor.Ring
import Mathlib.Data.Rat.Floor
import Mathlib.Data.Fin.VecNotation
import Mathlib.Algebra.Order.BigOperators.Group.Finset

/-!
# Property theorems: time domain beamformers (C44, C45, C73, C74)
-/

set_option linter.unusedSectionVars false

namespace Acoular

open Spec

/-! ### Delay and sum -/

section kernel
variable {K : Type*} [Field K] {M G : ℕ}

private theorem foldlM_some {ι β : Type*} (l : List ι) (f : β → ι → Option β) (g : β → ι → β)
    (h : ∀ b, ∀ i ∈ l, f b i = some (g b i)) (b : β) : l.foldlM f b = some (l.foldl g b) := by
  induction l generalizing b with
  | nil => rfl
  | cons i l ih =>
    rw [List.foldlM_cons, h b i (by simp), List.foldl_cons]
    exact ih (fun b j hj => h b j (List.mem_cons_of_mem _ hj)) _

private theorem foldl_pair (l : List (Fin M)) (r : Fin M → K) (a b : K) :
    l.foldl (fun (acc : K × K) mi => (acc.1 + r mi, acc.2 + r mi * r mi)) (a, b) =
      (a + (l.map r).sum, b + (l.map fun i => r i * r i).sum) := by
  induction l generalizing a b with
  | nil => simp
  | cons i l ih => rw [List.foldl_cons, ih]; simp [add_assoc]

/-- If all delays stay below the end of the data, the kernel reads inside the data only and returns the delay and sum
and the sum of the powers. -/
theorem C45_value (data : List (Fin M → K)) (off : Fin M → ℕ) (f2 amp : Fin M → K) (n : ℕ)
    (h : ∀ mi, off mi + n + 1 < data.length) :
    delaySumPoint data off f2 amp n = some (delayAndSum (fun i mi => (data.getD i 0) mi) off f2 amp n,
      delayAutoPower (fun i mi => (data.getD i 0) mi) off f2 amp n) := by
  unfold delaySumPoint
  rw [foldlM_some _ _ (fun acc mi => (acc.1 + delayed (fun i => (data.getD i 0) mi) n (off mi) (f2 mi) * amp mi,
    acc.2 + delayed (fun i => (data.getD i 0) mi) n (off mi) (f2 mi) * amp mi *
      (delayed (fun i => (data.getD i 0) mi) n (off mi) (f2 mi) * amp mi)))]
  · rw [foldl_pair]
    simp only [zero_add, delayAndSum, delayAutoPower, ← List.ofFn_eq_map, List.sum_ofFn, pow_two]
  · intro b mi _
    have h1 := h mi
    have e1 : data[off mi + n]? = some (data.getD (n + off mi) 0) := by
      rw [List.getD_eq_getElem?_getD, Nat.add_comm n, List.getElem?_eq_getElem (by omega)]; rfl
    have e2 : data[off mi + n + 1]? = some (data.getD (n + off mi + 1) 0) := by
      rw [List.getD_eq_getElem?_getD, Nat.add_comm n, List.getElem?_eq_getElem (by omega)]; rfl
    rw [e1, e2]
    rfl

/-- The hypotheses of `C45_value` are met: -/
example := C45_value (K := ℚ) (M := 2) [![1, 2], ![3, 4], ![5, 6]] ![0, 1] ![1 / 2, 1 / 4] ![1, 2] 0 (by decide)

/-- A read outside of the data happens exactly if some delay is too long. -/
theorem C45_outside (data : List (Fin M → K)) (off : Fin M → ℕ) (f2 amp : Fin M → K) (n : ℕ) :
    delaySumPoint data off f2 amp n = none ↔ ∃ mi, data.length ≤ off mi + n + 1 := by
  constructor
  · intro h
    by_contra hc
    push Not at hc
    rw [C45_value data off f2 amp n hc] at h
    cases h
  · rintro ⟨mi, hmi⟩
    have : ∀ (l : List (Fin M)) (b : K × K), mi ∈ l → l.foldlM (fun (acc : K × K) mi =>
        match data[off mi + n]?, data[off mi + n + 1]? with
        | some x, some y =>
          some (acc.1 + (x mi * (1 - f2 mi) + y mi * f2 mi) * amp mi,
            acc.2 + (x mi * (1 - f2 mi) + y mi * f2 mi) * amp mi * ((x mi * (1 - f2 mi) + y mi * f2 mi) * amp mi))
        | _, _ => none) b = none := by
      intro l
      induction l with
      | nil => intro b h; simp at h
      | cons j l ih =>
        intro b hj
        rw [List.foldlM_cons]
        rcases List.mem_cons.1 hj with rfl | hj
        · rw [List.getElem?_eq_none hmi]
          cases data[off mi + n]? <;> rfl
        · cases h1 : data[off j + n]? with
          | none => rfl
          | some x =>
            cases h2 : data[off j + n + 1]? with
            | none => rfl
            | some y => exact ih _ hj
    exact this _ _ (List.mem_finRange mi)

/-- Linear in the data. -/
theorem C45_linear (x y : ℕ → Fin M → K) (s : K) (off : Fin M → ℕ) (f2 amp : Fin M → K) (n : ℕ) :
    delayAndSum (fun i mi => s * x i mi + y i mi) off f2 amp n =
      s * delayAndSum x off f2 amp n + delayAndSum y off f2 amp n := by
  simp only [delayAndSum, delayed, Finset.mul_sum, ← Finset.sum_add_distrib]
  exact Finset.sum_congr rfl fun mi _ => by ring

/-- Without fractional delays the weighted sum of the shifted channels. -/
theorem C45_integer_delays (x : ℕ → Fin M → K) (off : Fin M → ℕ) (amp : Fin M → K) (n : ℕ) :
    delayAndSum x off (fun _ => 0) amp n = ∑ mi, x (n + off mi) mi * amp mi := by
  simp only [delayAndSum, delayed]
  exact Finset.sum_congr rfl fun mi _ => by ring

variable [LinearOrder K] [IsStrictOrderedRing K] [FloorSemiring K]

/-- The delay in samples is the sum of index and fraction, and the fraction is below one. -/
theorem C45_delays (c : K) (hc : 0 < c) (rm : Fin G → Fin M → K) (gi : Fin G) (mi : Fin M) (hr : 0 ≤ rm gi mi) :
    (delayIndex c rm gi mi : K) + delayFrac c rm gi mi = rm gi mi / c ∧
      0 ≤ delayFrac c rm gi mi ∧ delayFrac c rm gi mi < 1 := by
  have h0 : 0 ≤ 1 / c * rm gi mi := mul_nonneg (by positivity) hr
  have e : 1 / c * rm gi mi = rm gi mi / c := by rw [one_div, inv_mul_eq_div]
  unfold delayIndex delayFrac
  refine ⟨by rw [add_sub_cancel, e], ?_, ?_⟩
  · linarith [Nat.floor_le h0]
  · linarith [Nat.lt_floor_add_one (1 / c * rm gi mi)]

/-- The hypotheses of `C45_delays` are met: -/
example := C45_delays (K := ℚ) (G := 1) (M := 2) 343 (by norm_num) (fun _ => ![1000, 500]) 0 1 (by simp)

private theorem le_foldr_max (l : List K) (x : K) (hx : x ∈ l) : x ≤ l.foldr max 0 := by
  induction l with
  | nil => simp at hx
  | cons y l ih =>
    rw [List.foldr_cons]
    rcases List.mem_cons.1 hx with rfl | hx
    · exact le_max_left _ _
    · exact (ih hx).trans (le_max_right _ _)

/-- The announced maximum delay is two more than every delay index. -/
theorem C45_max_delay (c : K) (rm : Fin G → Fin M → K) (gi : Fin G) (mi : Fin M) :
    delayIndex c rm gi mi + 2 ≤ maxSampleDelay c rm := by
  unfold delayIndex maxSampleDelay
  apply Nat.add_le_add_right
  apply Nat.floor_mono
  rw [one_div, inv_mul_eq_div]
  apply le_foldr_max
  simp only [List.mem_flatMap, List.mem_map]
  exact ⟨gi, List.mem_finRange _, mi, List.mem_finRange _, rfl⟩

end kernel

/-! ### The blocks -/

section blocks
variable {α β : Type*}

private theorem beamTimeLoop_windows {num d : ℕ} (hn : 0 < num) (hd : 0 < d) (out : ℕ → List α → β) :
    ∀ (m : ℕ) (data : List α), data.length ≤ m → d ≤ data.length →
      beamTimeLoop d (num + d) out num (overlapBlocks num (num + d) data) =
        ⟨(List.range ((data.length - d) / num + 1)).map fun k : ℕ =>
          out (min num (data.length - d - k * num)) ((data.drop (k * num)).take (num + d)),
          if ((data.length - d) / num + 1) * num < data.length then .raised .valueError else .returned⟩ := by
  intro m
  induction m with
  | zero => intro data h1 h2; omega
  | succ m ih =>
    intro data hm hN
    have hne : data ≠ [] := by rintro rfl; simp at hN; omega
    rw [overlapBlocks_step hn _ hne, beamTimeLoop]
    by_cases hs : data.length < num + d
    · have hq : (data.length - d) / num = 0 := Nat.div_eq_of_lt (by omega)
      have htl : (data.take (num + d)).length = data.length := by rw [List.length_take]; omega
      rw [if_pos (by omega), if_neg (by omega), htl, hq]
      simp only [Nat.zero_add, List.range_one, List.map_cons, List.map_nil, Nat.zero_mul, Nat.sub_zero, List.drop_zero,
        Nat.one_mul]
      rw [Nat.min_eq_right (by omega)]
      by_cases hc : num < data.length
      · have hne2 : data.drop num ≠ [] := by
          intro h
          have := congrArg List.length h
          rw [List.length_drop, List.length_nil] at this
          omega
        rw [overlapBlocks_step hn _ hne2, beamTimeLoop, if_pos hc, if_pos, if_pos]
        · rfl
        · rw [List.length_take, List.length_drop]; omega
        · rw [List.length_take, List.length_drop]; omega
      · rw [List.drop_eq_nil_of_le (by omega), overlapBlocks_nil num _ hn, beamTimeLoop, if_neg hc]
        rfl
    · have htl : (data.take (num + d)).length = num + d := by rw [List.length_take]; omega
      rw [if_neg (by omega), ih (data.drop num) (by rw [List.length_drop]; omega) (by rw [List.length_drop]; omega)]
      have hq : (data.length - d) / num = (data.length - num - d) / num + 1 := by
        rw [← Nat.add_div_right _ hn]; congr 1; omega
      rw [List.length_drop, hq, List.range_succ_eq_map (n := (data.length - num - d) / num + 1), List.map_cons, List.map_map]
      simp only [Trace.cons]
      congr 1
      · congr 1
        · simp only [Nat.zero_mul, Nat.sub_zero, List.drop_zero]
          rw [Nat.min_eq_left (by omega)]
        · apply List.map_congr_left
          intro k _
          simp only [Function.comp_apply]
          rw [List.drop_drop, Nat.succ_mul, Nat.add_comm num (k * num),
            show data.length - num - d - k * num = data.length - d - (k * num + num) by omega]
      · have : ((data.length - num - d) / num + 1) * num < data.length - num ↔
            ((data.length - num - d) / num + 1 + 1) * num < data.length := by
          rw [Nat.succ_mul ((data.length - num - d) / num + 1)]; omega
        simp only [this]

private theorem flatten_rows {num : ℕ} (hn : 0 < num) (g : ℕ → β) :
    ∀ (m P c : ℕ), P ≤ m →
      ((List.range (P / num + 1)).map fun k : ℕ => (List.range (min num (P - k * num))).map fun n : ℕ => g (c + (k * num + n))).flatten =
        (List.range P).map fun n : ℕ => g (c + n) := by
  intro m
  induction m with
  | zero =>
    intro P c h
    have : P = 0 := by omega
    subst this
    simp
  | succ m ih =>
    intro P c h
    by_cases hP : P < num
    · rw [Nat.div_eq_of_lt hP]
      simp only [Nat.zero_add, List.range_one, List.map_cons, List.map_nil, Nat.zero_mul, Nat.sub_zero, List.flatten_cons,
        List.flatten_nil, List.append_nil]
      rw [Nat.min_eq_right (by omega)]
    · have hq : P / num = (P - num) / num + 1 := by rw [← Nat.add_div_right _ hn]; congr 1; omega
      rw [hq, List.range_succ_eq_map, List.map_cons, List.map_map, List.flatten_cons]
      have h2 := ih (P - num) (c + num) (by omega)
      have e : (List.map ((fun k : ℕ => (List.range (min num (P - k * num))).map fun n : ℕ => g (c + (k * num + n))) ∘ Nat.succ)
          (List.range ((P - num) / num + 1))) =
          (List.range ((P - num) / num + 1)).map fun k : ℕ => (List.range (min num (P - num - k * num))).map fun n : ℕ => g (c + num + (k * num + n)) := by
        apply List.map_congr_left
        intro k _
        simp only [Function.comp_apply]
        rw [Nat.succ_mul, show P - (k * num + num) = P - num - k * num by omega]
        apply List.map_congr_left
        intro n _
        congr 1
        omega
      rw [e, h2]
      simp only [Nat.zero_mul, Nat.sub_zero, Nat.zero_add]
      rw [Nat.min_eq_left (by omega)]
      conv_rhs => rw [show P = num + (P - num) by omega, List.range_add, List.map_append, List.map_map]
      congr 1
      apply List.map_congr_left
      intro n _
      simp only [Function.comp_apply]
      congr 1
      omega

private theorem beamTime_eq (z : α) (w : α → α) (hw : ∀ x, w (w x) = w x) {num d : ℕ} (hn : 0 < num) (hd : 0 < d)
    (out : ℕ → List α → β) (source : ℕ → List (List α)) (data : List α) (hsrc : IsBlocking num data (source num))
    (fuel : ℕ) (hf : data.length < fuel) :
    beamTime z w d out source num fuel = beamTimeLoop d (num + d) out num (overlapBlocks num (num + d) (data.map w)) := by
  unfold beamTime
  have hq : 2 ≤ (num + d + num - 1) / num := by
    rw [Nat.le_div_iff_mul_le hn]; omega
  have hL : num < (num + d + num - 1) / num * num := by
    have := Nat.mul_le_mul_right num hq
    omega
  have h := SBuf.loopDyn_eq z hn w (fun _ => num + d) (fun _ => by omega) fuel 0 _ data
    (SBuf.create_dyn z hn hL (Nat.mul_mod_left _ _) hsrc) hf
  simp only [h]
  rw [touchBlocks_idem hn w hw _ fuel 0 data data rfl rfl hf]
  congr 1
  unfold overlapBlocks
  rw [List.length_map]
  apply List.map_congr_left
  intro j _
  rw [List.map_take, List.map_drop]

end blocks

/-! ### The beamformer -/

section beam
variable {K : Type*} [Field K] [LinearOrder K] [IsStrictOrderedRing K] [FloorSemiring K] {M G : ℕ}

/-- What the three kinds of output are, for every signal: the delay and sum, its square, and (with `r_diag`) the sum over
all pairs of different microphones, where negative values are replaced by zero. -/
theorem C44_output (x : ℕ → Fin M → K) (k : Fin M → ℕ) (f a : Fin M → K) (n : ℕ) :
    let v := (delayAndSum x k f a n, delayAutoPower x k f a n)
    BeamTimeMode.signal.apply v = delayAndSum x k f a n ∧
    BeamTimeMode.square.apply v = delayAndSum x k f a n ^ 2 ∧
    BeamTimeMode.squareNoDiag.apply v = if 0 ≤ delayCrossPower x k f a n then delayCrossPower x k f a n else 0 := by
  refine ⟨rfl, rfl, ?_⟩
  have e : delayAndSum x k f a n ^ 2 - delayAutoPower x k f a n = delayCrossPower x k f a n := by
    unfold delayAndSum delayAutoPower delayCrossPower
    rw [sq, Finset.sum_mul_sum, ← Finset.sum_sub_distrib]
    refine Finset.sum_congr rfl fun m _ => ?_
    rw [Finset.filter_ne', ← Finset.add_sum_erase _ _ (Finset.mem_univ m)]
    ring
  show max (delayAndSum x k f a n ^ 2 - delayAutoPower x k f a n) 0 = _
  rw [e]
  split
  · exact max_eq_left (by assumption)
  · exact max_eq_right (le_of_lt (not_le.1 (by assumption)))

/-- Without weights the beamformer delivers `N - d` samples (`d` the maximum delay in samples plus 2, `N >= d`), cut into
blocks of `num` samples, the last one shorter (possibly empty); sample `n` at a grid point is the delay and sum of the
data at `n`.  It ends normally exactly if no multiple of `num` lies strictly between `N - d` and `N`, with a ValueError
otherwise. -/
theorem C44_samples_partial (mode : BeamTimeMode) (c : K) (rm amp : Fin G → Fin M → K)
    (source : ℕ → List (List (Fin M → K))) (data : List (Fin M → K)) (num : ℕ) (hn : 0 < num)
    (hsrc : IsBlocking num data (source num)) (fuel : ℕ) (hf : data.length < fuel)
    (hN : maxSampleDelay c rm ≤ data.length) :
    let tr := beamformerTime mode (fun _ => 1) c rm amp source num fuel
    let P := data.length - maxSampleDelay c rm
    tr.blocks.flatten = (List.range P).map (fun n gi => some (mode.apply
      (delayAndSum (fun i mi => (data.getD i 0) mi) (delayIndex c rm gi) (delayFrac c rm gi) (amp gi) n,
       delayAutoPower (fun i mi => (data.getD i 0) mi) (delayIndex c rm gi) (delayFrac c rm gi) (amp gi) n))) ∧
    tr.blocks.length = P / num + 1 ∧
    (∀ k < P / num, (tr.blocks[k]?).map List.length = some num) ∧
    (tr.blocks[P / num]?).map List.length = some (P % num) ∧
    tr.exit = if (P / num + 1) * num < data.length then .raised .valueError else .returned := by
  intro tr P
  set d := maxSampleDelay c rm with hd
  have hdp : 0 < d := by rw [hd, maxSampleDelay]; omega
  have hw : (fun (row : Fin M → K) (mi : Fin M) => row mi * (1 : K)) = id := by funext row mi; simp
  have htr : tr = ⟨(List.range (P / num + 1)).map fun k : ℕ =>
      (List.range (min num (P - k * num))).map fun (n : ℕ) (gi : Fin G) => some (mode.apply
      (delayAndSum (fun i mi => (data.getD i 0) mi) (delayIndex c rm gi) (delayFrac c rm gi) (amp gi) (0 + (k * num + n)),
       delayAutoPower (fun i mi => (data.getD i 0) mi) (delayIndex c rm gi) (delayFrac c rm gi) (amp gi) (0 + (k * num + n)))),
      if (P / num + 1) * num < data.length then .raised .valueError else .returned⟩ := by
    show beamformerTime mode (fun _ => 1) c rm amp source num fuel = _
    unfold beamformerTime
    rw [hw, beamTime_eq _ id (fun _ => rfl) hn hdp _ source data hsrc fuel hf, List.map_id,
      beamTimeLoop_windows hn hdp _ data.length data (Nat.le_refl _) hN]
    congr 1
    apply List.map_congr_left
    intro k hk
    rw [List.mem_range] at hk
    unfold delaySum4
    rw [List.map_map]
    apply List.map_congr_left
    intro n hn'
    rw [List.mem_range] at hn'
    funext gi
    simp only [Function.comp_apply]
    have hkn : k * num + n < P := by
      have : n < P - k * num := lt_of_lt_of_le hn' (Nat.min_le_right _ _)
      omega
    have hnn : n < num := lt_of_lt_of_le hn' (Nat.min_le_left _ _)
    have hPd : P = data.length - d := rfl
    rw [C45_value]
    · have hx : ∀ i, i < num + d → k * num + i < data.length →
          (((data.drop (k * num)).take (num + d)).getD i 0) = data.getD (k * num + i) 0 := by
        intro i hi hi2
        rw [List.getD_eq_getElem?_getD, List.getD_eq_getElem?_getD, List.getElem?_take, if_pos hi, List.getElem?_drop]
      have hdel : ∀ mi, delayed (fun i => (((data.drop (k * num)).take (num + d)).getD i 0) mi) n (delayIndex c rm gi mi)
          (delayFrac c rm gi mi) = delayed (fun i => (data.getD i 0) mi) (0 + (k * num + n)) (delayIndex c rm gi mi)
          (delayFrac c rm gi mi) := by
        intro mi
        have := C45_max_delay c rm gi mi
        simp only [delayed]
        rw [hx _ (by omega) (by omega), hx _ (by omega) (by omega)]
        rw [show k * num + (n + delayIndex c rm gi mi) = 0 + (k * num + n) + delayIndex c rm gi mi by omega,
          show k * num + (n + delayIndex c rm gi mi + 1) = 0 + (k * num + n) + delayIndex c rm gi mi + 1 by omega]
      simp only [delayAndSum, delayAutoPower, hdel, Option.map_some]
    · intro mi
      have := C45_max_delay c rm gi mi
      rw [List.length_take, List.length_drop]
      omega
  have hdm := Nat.div_add_mod P num
  have hml := Nat.mod_lt P hn
  have hcm := Nat.mul_comm num (P / num)
  rw [htr]
  refine ⟨?_, by simp, ?_, ?_, rfl⟩
  · simp only
    rw [flatten_rows hn (fun n gi => some (mode.apply
      (delayAndSum (fun i mi => (data.getD i 0) mi) (delayIndex c rm gi) (delayFrac c rm gi) (amp gi) n,
       delayAutoPower (fun i mi => (data.getD i 0) mi) (delayIndex c rm gi) (delayFrac c rm gi) (amp gi) n))) P P 0 (Nat.le_refl _)]
    simp only [Nat.zero_add]
  · intro k hk
    simp only
    rw [List.getElem?_map, List.getElem?_range (by omega)]
    simp only [Option.map_some, List.length_map, List.length_range]
    have : (k + 1) * num ≤ P / num * num := Nat.mul_le_mul_right num hk
    rw [Nat.succ_mul] at this
    rw [Nat.min_eq_left (by omega)]
  · simp only
    rw [List.getElem?_map, List.getElem?_range (by omega)]
    simp only [Option.map_some, List.length_map, List.length_range]
    rw [show P - P / num * num = P % num by omega, Nat.min_eq_right (by omega)]

/-- The hypotheses of `C44_samples_partial` are met: -/
example := C44_samples_partial (K := ℚ) (G := 1) (M := 1) .signal 1 (fun _ _ => 0) (fun _ _ => 1) (fun n => chunks n [![1], ![2], ![3], ![4], ![5]])
  [![1], ![2], ![3], ![4], ![5]] 2 (by decide) (isBlocking_chunks (by decide) _) 10 (by decide) (by simp [maxSampleDelay, List.finRange_succ])

/-- Condition for a normal end in terms of the remainder `N mod num`. -/
theorem C44_normal_end_iff (N d num : ℕ) (hn : 0 < num) (hd : 0 < d) (hN : d ≤ N) :
    ((N - d) / num + 1) * num < N ↔ (0 < N % num ∧ N % num < d) ∨ (N % num = 0 ∧ num < d) := by
  have h1 := Nat.div_add_mod (N - d) num
  have h2 := Nat.mod_lt (N - d) hn
  have h3 := Nat.div_add_mod N num
  have h4 := Nat.mod_lt N hn
  rw [Nat.succ_mul, Nat.mul_comm ((N - d) / num)]
  set q := (N - d) / num
  set p := N / num
  constructor
  · intro h
    by_contra hc
    push Not at hc
    -- num * q + num < N
    rcases Nat.eq_zero_or_pos (N % num) with h0 | h0
    · have hd2 := hc.2 h0
      have hqp : q + 1 < p := by
        by_contra hh
        have : num * p ≤ num * (q + 1) := Nat.mul_le_mul_left num (by omega)
        rw [Nat.mul_succ] at this
        omega
      have : num * (q + 2) ≤ num * p := Nat.mul_le_mul_left num (by omega)
      rw [Nat.mul_add] at this
      omega
    · have hd2 := hc.1 h0
      have hqp : q + 1 ≤ p := by
        by_contra hh
        have : num * (p + 1) ≤ num * (q + 1) := Nat.mul_le_mul_left num (by omega)
        rw [Nat.mul_succ, Nat.mul_succ] at this
        omega
      have : num * (q + 1) ≤ num * p := Nat.mul_le_mul_left num hqp
      rw [Nat.mul_succ] at this
      omega
  · rintro (⟨h5, h6⟩ | ⟨h5, h6⟩)
    · have hqp : q < p := by
        by_contra hh
        have : num * p ≤ num * q := Nat.mul_le_mul_left num (by omega)
        omega
      have : num * (q + 1) ≤ num * p := Nat.mul_le_mul_left num hqp
      rw [Nat.mul_succ] at this
      omega
    · have hqp : q + 1 < p := by
        by_contra hh
        have : num * p ≤ num * (q + 1) := Nat.mul_le_mul_left num (by omega)
        rw [Nat.mul_succ] at this
        omega
      have : num * (q + 2) ≤ num * p := Nat.mul_le_mul_left num (by omega)
      rw [Nat.mul_add] at this
      omega

/-- The hypotheses of `C44_normal_end_iff` are met: -/
example := C44_normal_end_iff 100 7 32 (by decide) (by decide) (by decide)

/-- Fewer samples than the maximum delay: ValueError at once. -/
theorem C44_short_source_violated (mode : BeamTimeMode) (c : K) (rm amp : Fin G → Fin M → K)
    (source : ℕ → List (List (Fin M → K))) (data : List (Fin M → K)) (num : ℕ) (hn : 0 < num)
    (hsrc : IsBlocking num data (source num)) (fuel : ℕ) (hf : data.length < fuel)
    (h0 : data ≠ []) (hN : data.length < maxSampleDelay c rm) :
    beamformerTime mode (fun _ => 1) c rm amp source num fuel = .raise .valueError := by
  have hw : (fun (row : Fin M → K) (mi : Fin M) => row mi * (1 : K)) = id := by funext row mi; simp
  unfold beamformerTime
  rw [hw, beamTime_eq _ id (fun _ => rfl) hn (by omega) _ source data hsrc fuel hf, List.map_id,
    overlapBlocks_step hn _ h0, beamTimeLoop, if_pos (by rw [List.length_take]; omega),
    if_pos (by rw [List.length_take]; omega)]

/-! ### Weights -/

private theorem touchBlocks_length (num : ℕ) {α : Type*} (w : α → α) (r : ℕ → ℕ) (fuel k : ℕ) (l : List α) (b : List α)
    (hb : (touchBlocks num w r fuel k l).head? = some b) : b.length = min (r k) l.length := by
  cases fuel with
  | zero => simp [touchBlocks] at hb
  | succ fuel =>
    by_cases hl : l = []
    · subst hl; rw [touchBlocks_nil] at hb; simp at hb
    · rw [touchBlocks_step _ _ _ _ _ hl] at hb
      simp only [List.head?_cons, Option.some.injEq] at hb
      rw [← hb]; simp

/-- Spatial weights are applied to the view into the buffer: the first sample (with `P > num` samples to deliver) is
weighted once, the first sample of the second block twice. -/
theorem C74_weights_violated (weights : Fin M → K) (c : K) (rm amp : Fin G → Fin M → K)
    (source : ℕ → List (List (Fin M → K))) (data : List (Fin M → K)) (num : ℕ) (hn : 0 < num)
    (hsrc : IsBlocking num data (source num)) (fuel : ℕ) (hf : data.length < fuel)
    (hN : num + maxSampleDelay c rm < data.length) :
    let tr := beamformerTime .signal weights c rm amp source num fuel
    (∃ b, tr.blocks[0]? = some b ∧ b[0]? = some fun gi => some
      (delayAndSum (fun i mi => (data.getD i 0) mi * weights mi) (delayIndex c rm gi) (delayFrac c rm gi) (amp gi) 0)) ∧
    (∃ b, tr.blocks[1]? = some b ∧ b[0]? = some fun gi => some
      (delayAndSum (fun i mi => (data.getD i 0) mi * weights mi * weights mi) (delayIndex c rm gi) (delayFrac c rm gi) (amp gi)
        num)) := by
  intro tr
  set d := maxSampleDelay c rm with hd
  set w : (Fin M → K) → Fin M → K := fun row mi => row mi * weights mi with hw
  set out : ℕ → List (Fin M → K) → List (Fin G → Option K) := fun n b =>
    (delaySum4 n b (delayIndex c rm) (delayFrac c rm) amp).map fun row gi => (row gi).map BeamTimeMode.signal.apply with hout
  obtain ⟨fuel, rfl⟩ : ∃ k, fuel = k + 2 := ⟨fuel - 2, by omega⟩
  have hq : 2 ≤ (num + d + num - 1) / num := by
    rw [Nat.le_div_iff_mul_le hn]
    have : 2 ≤ d := by rw [hd, maxSampleDelay]; omega
    omega
  have hL : num < (num + d + num - 1) / num * num := by
    have := Nat.mul_le_mul_right num hq
    omega
  have hrun := SBuf.loopDyn_eq (fun _ => (0 : K)) hn w (fun _ => num + d) (fun _ => by omega) (fuel + 2) 0 _ data
    (SBuf.create_dyn (fun _ => (0 : K)) hn hL (Nat.mul_mod_left _ _) hsrc) hf
  have hne : data ≠ [] := by rintro rfl; simp at hN
  set rem1 := ((data.take (num + d)).map w ++ data.drop (num + d)).drop num with hrem1
  have hl1 : rem1.length = data.length - num := by
    rw [hrem1, List.length_drop, List.length_append, List.length_map, ← List.length_append, List.take_append_drop]
  have hne1 : rem1 ≠ [] := by
    intro h; rw [h, List.length_nil] at hl1; omega
  rw [touchBlocks_step _ _ _ _ _ hne, ← hrem1, touchBlocks_step _ _ _ _ _ hne1] at hrun
  set b0 := (data.take (num + d)).map w with hb0
  set b1 := (rem1.take (num + d)).map w with hb1
  generalize touchBlocks num w (fun _ => num + d) fuel (0 + 1 + 1) _ = tail at hrun
  have hb0l : b0.length = num + d := by rw [hb0, List.length_map, List.length_take]; omega
  have hb1l : b1.length = min (num + d) (data.length - num) := by rw [hb1, List.length_map, List.length_take, hl1]
  have htr : ∃ n1, 0 < n1 ∧ tr.blocks[0]? = some (out num b0) ∧ tr.blocks[1]? = some (out n1 b1) := by
    have e : tr = beamTimeLoop d (num + d) out num (b0 :: b1 :: tail) := by
      show beamTime (fun _ => (0 : K)) w d out source num (fuel + 2) = _
      unfold beamTime
      simp only [hrun]
    rw [e, beamTimeLoop, if_neg (by omega), beamTimeLoop]
    by_cases hs : b1.length < num + d
    · refine ⟨b1.length - d, by omega, ?_⟩
      rw [if_pos hs, if_neg (by omega)]
      exact ⟨rfl, rfl⟩
    · refine ⟨num, hn, ?_⟩
      rw [if_neg hs]
      exact ⟨rfl, rfl⟩
  obtain ⟨n1, hn1, h0, h1⟩ := htr
  have first : ∀ (n : ℕ) (b : List (Fin M → K)), 0 < n → d ≤ b.length → (out n b)[0]? = some fun gi => some
      (delayAndSum (fun i mi => (b.getD i 0) mi) (delayIndex c rm gi) (delayFrac c rm gi) (amp gi) 0) := by
    intro n b hn0 hb
    rw [hout]
    simp only [delaySum4, List.map_map]
    rw [List.getElem?_map, List.getElem?_range hn0]
    simp only [Option.map_some, Function.comp_apply]
    congr 1
    funext gi
    rw [C45_value _ _ _ _ _ fun mi => by have := C45_max_delay c rm gi mi; omega]
    rfl
  refine ⟨⟨_, h0, ?_⟩, ⟨_, h1, ?_⟩⟩
  · rw [first num b0 hn (by omega)]
    congr 1
    funext gi
    congr 1
    unfold delayAndSum
    apply Finset.sum_congr rfl
    intro mi _
    have := C45_max_delay c rm gi mi
    have hx : ∀ i, i < d → (b0.getD i 0) mi = (data.getD i 0) mi * weights mi := by
      intro i hi
      rw [hb0, List.getD_eq_getElem?_getD, List.getD_eq_getElem?_getD, List.getElem?_map, List.getElem?_take,
        if_pos (by omega), List.getElem?_eq_getElem (by omega)]
      rfl
    simp only [delayed]
    rw [hx _ (by omega), hx _ (by omega)]
  · rw [first n1 b1 hn1 (by omega)]
    congr 1
    funext gi
    congr 1
    unfold delayAndSum
    apply Finset.sum_congr rfl
    intro mi _
    have := C45_max_delay c rm gi mi
    have hx : ∀ i, i < d → (b1.getD i 0) mi = (data.getD (num + i) 0) mi * weights mi * weights mi := by
      intro i hi
      rw [hb1, List.getD_eq_getElem?_getD, List.getD_eq_getElem?_getD, List.getElem?_map, List.getElem?_take,
        if_pos (by omega), hrem1, List.getElem?_drop, List.getElem?_append, if_pos (by omega), hb0, List.getElem?_map,
        List.getElem?_take, if_pos (by omega), List.getElem?_eq_getElem (by omega)]
      rfl
    simp only [delayed]
    rw [hx _ (by omega), hx _ (by omega)]
    simp only [Nat.zero_add, Nat.add_assoc]

/-- Weights that are 0 or 1 (a selection of microphones) or all 1 do no harm. -/
theorem C74_idempotent_partial {α β : Type*} (z : α) (w : α → α) (hw : ∀ x, w (w x) = w x) {num d : ℕ} (hn : 0 < num)
    (hd : 0 < d) (out : ℕ → List α → β) (source : ℕ → List (List α)) (data : List α)
    (hsrc : ∀ n, 0 < n → IsBlocking n data (source n)) (source' : ℕ → List (List α))
    (hsrc' : ∀ n, 0 < n → IsBlocking n (data.map w) (source' n))
    (fuel : ℕ) (hf : data.length < fuel) :
    beamTime z w d out source num fuel = beamTime z id d out source' num fuel := by
  rw [beamTime_eq z w hw hn hd out source data (hsrc num hn) fuel hf,
    beamTime_eq z id (fun _ => rfl) hn hd out source' (data.map w) (hsrc' num hn) fuel (by simpa using hf), List.map_id]

-- Non-trivial instance: weight 2, constant data 1, no delays: samples 2, 4, ... instead of 2, 2, ...
example : maxSampleDelay (1 : ℚ) (fun (_ : Fin 1) (_ : Fin 1) => 0) = 2 := by
  simp [maxSampleDelay, List.finRange_succ]

end beam

/-! ### Amplitudes -/

section level
variable {K : Type*} [Field K] [LinearOrder K] [IsStrictOrderedRing K] {M : ℕ}

/-- A monopole at the focus point, whose signal arrives at microphone `m` with amplitude `r0 / rm` and the assumed delay,
is recovered exactly by the formulations II and III. -/
theorem C73_true_level (x : ℕ → Fin M → K) (k : Fin M → ℕ) (f : Fin M → K) (rm : Fin M → K) (r0 q : K) (n : ℕ)
    (hM : 0 < M) (hr : ∀ m, 0 < rm m) (h0 : 0 < r0)
    (h : ∀ m, delayed (fun i => x i m) n (k m) (f m) = r0 / rm m * q) :
    delayAndSum x k f (steerTime2 rm r0) n = q ∧ delayAndSum x k f (steerTime3 rm r0) n = q := by
  have hMK : (M : K) ≠ 0 := by exact_mod_cast hM.ne'
  constructor
  · unfold delayAndSum steerTime2
    have : ∀ m, delayed (fun i => x i m) n (k m) (f m) * (rm m * (1 / (M : K) / r0)) = q / M := by
      intro m
      rw [h m]
      have := (hr m).ne'
      have := h0.ne'
      field_simp
    simp only [this, Finset.sum_const, Finset.card_univ, Fintype.card_fin, nsmul_eq_mul]
    field_simp
  · unfold delayAndSum steerTime3
    set S := ∑ mi, 1 / rm mi ^ 2 with hS
    have hSp : 0 < S := by
      have : Nonempty (Fin M) := ⟨⟨0, hM⟩⟩
      exact Finset.sum_pos (fun m _ => by have := hr m; positivity) Finset.univ_nonempty
    have : ∀ m, delayed (fun i => x i m) n (k m) (f m) * (1 / (rm m * (S * r0))) = q / S * (1 / rm m ^ 2) := by
      intro m
      rw [h m]
      have := (hr m).ne'
      have := h0.ne'
      have := hSp.ne'
      field_simp
    simp only [this, ← Finset.mul_sum, ← hS]
    have := hSp.ne'
    field_simp

/-- The hypotheses of `C73_true_level` are met: -/
example := C73_true_level (K := ℚ) (M := 2) (fun _ => ![4, 2]) ![0, 1] ![1 / 2, 1 / 4] ![1, 2] 1 4 0 (by decide) (by decide) (by decide)
  (fun m => by match m with | 0 => norm_num [delayed] | 1 => norm_num [delayed])

/-- Formulation I instead yields the signal times the mean of `r0 / rm`. -/
theorem C73_steer1 (x : ℕ → Fin M → K) (k : Fin M → ℕ) (f : Fin M → K) (rm : Fin M → K) (r0 q : K) (n : ℕ)
    (h : ∀ m, delayed (fun i => x i m) n (k m) (f m) = r0 / rm m * q) :
    delayAndSum x k f (steerTime1 M) n = (1 / (M : K) * ∑ m, r0 / rm m) * q := by
  unfold delayAndSum steerTime1
  simp only [h]
  rw [Finset.mul_sum, Finset.sum_mul]
  exact Finset.sum_congr rfl fun m _ => by ring

/-- The hypotheses of `C73_steer1` are met: -/
example := C73_steer1 (K := ℚ) (M := 2) (fun _ => ![4, 2]) ![0, 1] ![1 / 2, 1 / 4] ![1, 2] 1 4 0
  (fun m => by match m with | 0 => norm_num [delayed] | 1 => norm_num [delayed])

/-- Formulation IV: unit gain for uncorrelated noise up to the number of microphones, and largest response at the true
position: the response is `sqrt (1/M) * r0 * sqrt (sum 1/rm^2)` times the signal. -/
theorem C73_steer4 (sqrt : K → K) (hsq : ∀ a, 0 ≤ a → sqrt a * sqrt a = a) (x : ℕ → Fin M → K) (k : Fin M → ℕ) (f : Fin M → K)
    (rm : Fin M → K) (r0 q : K) (n : ℕ) (hM : 0 < M) (hr : ∀ m, 0 < rm m)
    (h : ∀ m, delayed (fun i => x i m) n (k m) (f m) = r0 / rm m * q) :
    (∑ m, steerTime4 sqrt rm m ^ 2 = 1 / (M : K)) ∧
    delayAndSum x k f (steerTime4 sqrt rm) n = sqrt (1 / (M : K)) * r0 * sqrt (∑ m, 1 / rm m ^ 2) * q := by
  unfold steerTime4
  simp only
  set S := ∑ mi, 1 / rm mi ^ 2 with hS
  have hSp : 0 < S := by
    have : Nonempty (Fin M) := ⟨⟨0, hM⟩⟩
    exact Finset.sum_pos (fun m _ => by have := hr m; positivity) Finset.univ_nonempty
  have hs := hsq S hSp.le
  have hs0 : sqrt S ≠ 0 := by
    intro h0; rw [h0, mul_zero] at hs; exact hSp.ne hs
  have hMi : sqrt (1 / (M : K)) * sqrt (1 / (M : K)) = 1 / M := hsq _ (by positivity)
  constructor
  · have : ∀ m, (sqrt (1 / (M : K)) / (rm m * sqrt S)) ^ 2 = 1 / M / S * (1 / rm m ^ 2) := by
      intro m
      have := (hr m).ne'
      rw [div_pow, pow_two, hMi, mul_pow, pow_two (sqrt S), hs]
      field_simp
    simp only [this, ← Finset.mul_sum, ← hS]
    have := hSp.ne'
    field_simp
  · unfold delayAndSum
    have : ∀ m, delayed (fun i => x i m) n (k m) (f m) * (sqrt (1 / (M : K)) / (rm m * sqrt S)) =
        (sqrt (1 / (M : K)) * r0 * q / sqrt S) * (1 / rm m ^ 2) := by
      intro m
      rw [h m]
      have := (hr m).ne'
      field_simp
    simp only [this, ← Finset.mul_sum, ← hS]
    rw [← hs]
    rw [hs]
    field_simp
    rw [pow_two, hs]

/-- The hypotheses of `C73_steer4` are met: -/
example := C73_steer4 (K := ℝ) (M := 2) Real.sqrt (fun _ h => Real.mul_self_sqrt h) (fun _ => ![4, 2]) ![0, 1] ![1 / 2, 1 / 4] ![1, 2] 1 4 0
  (by decide) (fun m => by match m with | 0 => norm_num | 1 => norm_num) (fun m => by match m with | 0 => norm_num [delayed] | 1 => norm_num [delayed])

end level

end Acoular
