import Verif.Model.TimeBeamTraj
import Verif.Props.TimeBeam
import Mathlib.Algebra.BigOperators.Group.List.Basic
import Mathlib.Tactic.FinCases
import Mathlib.Tactic.NormNum

/-!
# Property theorems: moving focus grid, CLEAN-T, sector integration (C75, C76, C77)
-/

set_option linter.unusedSectionVars false

namespace Acoular

open Spec

section traj
variable {K : Type*} [Field K] [LinearOrder K] [IsStrictOrderedRing K] {M G : ℕ}

private theorem le_foldr_max_nat (l : List ℕ) (x : ℕ) (hx : x ∈ l) : x ≤ l.foldr max 0 := by
  induction l with
  | nil => simp at hx
  | cons y l ih =>
    rw [List.foldr_cons]
    rcases List.mem_cons.1 hx with rfl | hx
    · exact Nat.le_max_left _ _
    · exact (ih hx).trans (Nat.le_max_right _ _)

private theorem mem_of_lt_foldr_max (l : List ℕ) (b : ℕ) (h : b < l.foldr max 0) : ∃ x ∈ l, b < x := by
  induction l with
  | nil => simp at h
  | cons y l ih =>
    rw [List.foldr_cons] at h
    rcases Nat.lt_or_ge b y with hy | hy
    · exact ⟨y, by simp, hy⟩
    · obtain ⟨x, h1, h2⟩ := ih (by
        rcases Nat.le_total y (l.foldr max 0) with hh | hh
        · rwa [Nat.max_eq_right hh] at h
        · rw [Nat.max_eq_left hh] at h; omega)
      exact ⟨x, by simp [h1], h2⟩

private theorem le_trajResultNum (num : ℕ) (D : ℕ → ℕ) (k n : ℕ) (hn : n < num) :
    num + D (k * num + n) + 2 ≤ trajResultNum num D k := by
  unfold trajResultNum
  rw [Nat.add_assoc]
  apply Nat.add_le_add_left
  apply le_foldr_max_nat
  rw [List.mem_map]
  exact ⟨n, List.mem_range.2 hn, rfl⟩

private theorem countP_prefix (p : ℕ → Bool) (hp : ∀ n, p (n + 1) = true → p n = true) (m : ℕ) :
    (List.range m).countP p ≤ m ∧ (∀ n < m, n < (List.range m).countP p ↔ p n = true) := by
  induction m with
  | zero => simp
  | succ m ih =>
    obtain ⟨h1, h2⟩ := ih
    rw [List.range_succ, List.countP_append, List.countP_singleton]
    have hdown : ∀ j i, p (i + j) = true → p i = true := by
      intro j
      induction j with
      | zero => intro i h; exact h
      | succ j ihj => intro i h; exact ihj i (hp _ h)
    by_cases hm : p m = true
    · rw [if_pos hm]
      have hall : (List.range m).countP p = m := by
        rcases Nat.eq_zero_or_pos m with rfl | hpos
        · rfl
        · have : p (m - 1) = true := hdown 1 (m - 1) (by rw [show m - 1 + 1 = m by omega]; exact hm)
          have := (h2 (m - 1) (by omega)).2 this
          omega
      rw [hall]
      refine ⟨Nat.le_refl _, fun n hn => ⟨fun _ => ?_, fun _ => by omega⟩⟩
      exact hdown (m - n) n (by rw [show n + (m - n) = m by omega]; exact hm)
    · rw [if_neg hm, Nat.add_zero]
      refine ⟨by omega, fun n hn => ?_⟩
      rcases Nat.lt_or_ge n m with h | h
      · exact h2 n h
      · have : n = m := by omega
        subst this
        exact ⟨fun h => by omega, fun h => absurd h hm⟩

/-- The run of the loop on the windows of the data: it stops at the first window that is too short. -/
private theorem beamTrajLoop_windows {α β : Type*} {num T : ℕ} (hn : 0 < num) (D : ℕ → ℕ) (out : ℕ → ℕ → List α → List β)
    (g : ℕ → β) (data : List α) (hmono : ∀ n, D n ≤ D (n + 1) + 1)
    (hout : ∀ k n, n ≤ num → (∀ i < n, k * num + i + D (k * num + i) + 1 < data.length) →
      out k n ((data.drop (k * num)).take (trajResultNum num D k)) = (List.range n).map fun i : ℕ => g (k * num + i))
    (hT : data.length + num ≤ T) :
    ∀ (m k : ℕ), data.length - k * num ≤ m →
      ∃ S, (beamTrajLoop num T D out k ((List.range ((data.length - k * num + num - 1) / num)).map fun j : ℕ =>
          ((data.drop ((k + j) * num)).take (trajResultNum num D (k + j))))).blocks.flatten =
            (List.range S).map (fun i : ℕ => g (k * num + i)) ∧
        (beamTrajLoop num T D out k ((List.range ((data.length - k * num + num - 1) / num)).map fun j : ℕ =>
          ((data.drop ((k + j) * num)).take (trajResultNum num D (k + j))))).exit =
            (if T < (k + 1) * num then .raised .runtimeError else .returned) ∧
        (∀ i < S, k * num + i + D (k * num + i) + 1 < data.length) ∧
        (data.length ≤ k * num + S + D (k * num + S) + 1 ∨
          ∃ i < num, i < S ∧ data.length < k * num + S + D (k * num + S - 1 - i) + 2) := by
  intro m
  induction m with
  | zero =>
    intro k hk
    refine ⟨0, ?_⟩
    have h0 : (data.length - k * num + num - 1) / num = 0 := Nat.div_eq_of_lt (by omega)
    rw [h0]
    simp only [List.range_zero, List.map_nil, beamTrajLoop]
    refine ⟨by split <;> rfl, by split <;> rfl, fun i hi => by omega, Or.inl (by omega)⟩
  | succ m ih =>
    intro k hk
    by_cases hend : data.length ≤ k * num
    · refine ⟨0, ?_⟩
      have h0 : (data.length - k * num + num - 1) / num = 0 := Nat.div_eq_of_lt (by omega)
      rw [h0]
      simp only [List.range_zero, List.map_nil, beamTrajLoop]
      refine ⟨by split <;> rfl, by split <;> rfl, fun i hi => by omega, Or.inl (by omega)⟩
    · push Not at hend
      have hcount : (data.length - k * num + num - 1) / num = (data.length - (k + 1) * num + num - 1) / num + 1 := by
        rw [Nat.succ_mul]
        by_cases h : num ≤ data.length - k * num
        · rw [← Nat.add_div_right _ hn]; congr 1; omega
        · rw [show data.length - (k * num + num) = 0 by omega, Nat.div_eq_of_lt (a := 0 + num - 1) (by omega)]
          rw [show data.length - k * num + num - 1 = (data.length - k * num - 1) + num by omega, Nat.add_div_right _ hn,
            Nat.div_eq_of_lt (by omega)]
      rw [hcount, List.range_succ_eq_map, List.map_cons, List.map_map]
      have hTk : ¬ T < (k + 1) * num := by rw [Nat.succ_mul]; omega
      simp only [beamTrajLoop, if_neg hTk, Nat.add_zero]
      have hlen : ((data.drop (k * num)).take (trajResultNum num D k)).length =
          min (trajResultNum num D k) (data.length - k * num) := by rw [List.length_take, List.length_drop]
      by_cases hs : data.length - k * num < trajResultNum num D k
      · rw [if_pos (by rw [hlen]; omega)]
        have hl2 : ((data.drop (k * num)).take (trajResultNum num D k)).length = data.length - k * num := by
          rw [hlen]; omega
        rw [hl2]
        obtain ⟨c1, c2⟩ := countP_prefix (fun n : ℕ => decide (D (k * num + n) + 1 + n < data.length - k * num))
          (by
            intro n h
            have := hmono (k * num + n)
            rw [decide_eq_true_iff] at h ⊢
            rw [show k * num + (n + 1) = k * num + n + 1 by omega] at h
            omega) num
        have hin : ∀ i < trajShort num D k (data.length - k * num), k * num + i + D (k * num + i) + 1 < data.length := by
          intro i hi
          have := (c2 i (by unfold trajShort at hi; omega)).1 hi
          rw [decide_eq_true_iff] at this
          omega
        refine ⟨trajShort num D k (data.length - k * num), ?_, rfl, hin, ?_⟩
        · rw [hout k (trajShort num D k (data.length - k * num)) c1 hin]
          simp
        · rcases Nat.lt_or_ge (trajShort num D k (data.length - k * num)) num with hc | hc
          · left
            have := mt (c2 _ hc).2 (Nat.lt_irrefl _)
            rw [decide_eq_true_iff] at this
            omega
          · right
            have hS : trajShort num D k (data.length - k * num) = num := Nat.le_antisymm c1 hc
            rw [hS]
            have h0 := le_trajResultNum num D k 0 hn
            unfold trajResultNum at hs h0
            obtain ⟨x, hx, hlt⟩ := mem_of_lt_foldr_max ((List.range num).map fun n : ℕ => D (k * num + n) + 2)
              (data.length - k * num - num) (by omega)
            rw [List.mem_map] at hx
            obtain ⟨i, hi, rfl⟩ := hx
            rw [List.mem_range] at hi
            refine ⟨num - 1 - i, by omega, by omega, ?_⟩
            rw [show k * num + num - 1 - (num - 1 - i) = k * num + i by omega]
            omega
      · rw [if_neg (by rw [hlen]; omega)]
        have e : ((fun j : ℕ => (data.drop ((k + j) * num)).take (trajResultNum num D (k + j))) ∘ Nat.succ) =
            fun j : ℕ => (data.drop ((k + 1 + j) * num)).take (trajResultNum num D (k + 1 + j)) := by
          funext j
          simp only [Function.comp_apply]
          rw [show k + j.succ = k + 1 + j by omega]
        rw [e]
        obtain ⟨S, i1, i2, i3, i4⟩ := ih (k + 1) (by rw [Nat.succ_mul]; omega)
        rw [Nat.succ_mul] at i1 i3 i4
        have hin : ∀ i < num, k * num + i + D (k * num + i) + 1 < data.length := by
          intro i hi
          have := le_trajResultNum num D k i hi
          omega
        have hex : ¬ T < (k + 1 + 1) * num := by
          have : num ≤ data.length - k * num := by have := le_trajResultNum num D k 0 hn; omega
          rw [Nat.succ_mul, Nat.succ_mul]; omega
        refine ⟨num + S, ?_, ?_, ?_, ?_⟩
        · simp only [Trace.cons, List.flatten_cons]
          rw [Nat.succ_mul, i1, hout k num (Nat.le_refl _) hin, List.range_add, List.map_append, List.map_map]
          congr 1
          apply List.map_congr_left
          intro i _
          simp only [Function.comp_apply, Nat.add_assoc]
        · simp only [Trace.cons]
          rw [i2, if_neg hex]
        · intro i hi
          rcases Nat.lt_or_ge i num with h | h
          · exact hin i h
          · have := i3 (i - num) (by omega)
            rw [show k * num + num + (i - num) = k * num + i by omega] at this
            exact this
        · rw [show k * num + (num + S) = k * num + num + S by omega]
          rcases i4 with h | ⟨i, h1, h2, h3⟩
          · exact Or.inl h
          · exact Or.inr ⟨i, h1, by omega, h3⟩

/-- Moving grid, no weights, motion slower than sound (the arrival time `n + D n` never decreases), trajectory long
enough: the beamformer ends normally; the output is the delay and sum at the samples `0 ... S-1`, with the delays and
amplitudes of the position at each sample; all data needed exist; and it ends only when the data (for the sample `S`, or
with the delay of one of the last `num` samples) are used up. -/
theorem C75_samples_partial (mode : BeamTimeMode) (T : ℕ) (D : ℕ → ℕ) (off : ℕ → Fin G → Fin M → ℕ)
    (frac amp : ℕ → Fin G → Fin M → K) (source : ℕ → List (List (Fin M → K))) (data : List (Fin M → K)) (num : ℕ)
    (hn : 0 < num) (hsrc : IsBlocking num data (source num)) (fuel : ℕ) (hf : data.length < fuel)
    (hD : ∀ n gi mi, off n gi mi ≤ D n) (hmono : ∀ n, D n ≤ D (n + 1) + 1) (hT : data.length + num ≤ T) :
    let tr := beamformerTimeTraj mode (fun _ => 1) T D off frac amp source num fuel
    tr.exit = .returned ∧
    ∃ S, tr.blocks.flatten = (List.range S).map (fun n gi => some (mode.apply
        (delayAndSum (fun i mi => (data.getD i 0) mi) (off n gi) (frac n gi) (amp n gi) n,
         delayAutoPower (fun i mi => (data.getD i 0) mi) (off n gi) (frac n gi) (amp n gi) n))) ∧
      (∀ n < S, n + D n + 1 < data.length) ∧
      (data.length ≤ S + D S + 1 ∨ ∃ i < num, i < S ∧ data.length < S + D (S - 1 - i) + 2) := by
  intro tr
  have hw : (fun (row : Fin M → K) (mi : Fin M) => row mi * (1 : K)) = id := by funext row mi; simp
  have hrn : ∀ k, num ≤ trajResultNum num D k := fun k => by unfold trajResultNum; omega
  have hrun := SBuf.loopDyn_eq (fun _ => (0 : K)) hn id (trajResultNum num D) hrn fuel 0 _ data
    (SBuf.create_dyn (fun _ => (0 : K)) hn (L := num * 2) (by omega) (Nat.mul_mod_right _ _) hsrc) hf
  rw [touchBlocks_idem hn id (fun _ => rfl) _ fuel 0 data data rfl rfl hf] at hrun
  simp only [List.map_id, Nat.zero_add] at hrun
  obtain ⟨S, h1, h2, h3, h4⟩ := beamTrajLoop_windows hn D (fun k n b =>
    (delaySum5 n b (fun i => off (k * num + i)) (fun i => frac (k * num + i)) (fun i => amp (k * num + i))).map
      fun row gi => (row gi).map mode.apply)
    (fun n gi => some (mode.apply
        (delayAndSum (fun i mi => (data.getD i 0) mi) (off n gi) (frac n gi) (amp n gi) n,
         delayAutoPower (fun i mi => (data.getD i 0) mi) (off n gi) (frac n gi) (amp n gi) n)))
    data hmono (by
      intro k n hnn hin
      unfold delaySum5
      rw [List.map_map]
      apply List.map_congr_left
      intro i hi
      rw [List.mem_range] at hi
      funext gi
      simp only [Function.comp_apply]
      have hin' := hin i hi
      have hle := le_trajResultNum num D k i (by omega)
      rw [C45_value]
      · have hx : ∀ j, j < trajResultNum num D k →
            (((data.drop (k * num)).take (trajResultNum num D k)).getD j 0) = data.getD (k * num + j) 0 := by
          intro j hj
          rw [List.getD_eq_getElem?_getD, List.getD_eq_getElem?_getD, List.getElem?_take, if_pos hj, List.getElem?_drop]
        have hdel : ∀ mi, delayed (fun j => (((data.drop (k * num)).take (trajResultNum num D k)).getD j 0) mi) i
            (off (k * num + i) gi mi) (frac (k * num + i) gi mi) =
            delayed (fun j => (data.getD j 0) mi) (k * num + i) (off (k * num + i) gi mi) (frac (k * num + i) gi mi) := by
          intro mi
          have := hD (k * num + i) gi mi
          simp only [delayed]
          rw [hx _ (by omega), hx _ (by omega)]
          simp only [Nat.add_assoc]
        simp only [delayAndSum, delayAutoPower, hdel, Option.map_some]
      · intro mi
        have := hD (k * num + i) gi mi
        rw [List.length_take, List.length_drop]
        omega) hT data.length 0 (by omega)
  simp only [Nat.zero_mul, Nat.sub_zero, Nat.zero_add] at h1 h2 h3 h4
  have htr : tr = beamTrajLoop num T D (fun k n b =>
    (delaySum5 n b (fun i => off (k * num + i)) (fun i => frac (k * num + i)) (fun i => amp (k * num + i))).map
      fun row gi => (row gi).map mode.apply) 0 ((List.range ((data.length + num - 1) / num)).map fun j : ℕ =>
          ((data.drop (j * num)).take (trajResultNum num D j))) := by
    show beamformerTimeTraj mode (fun _ => 1) T D off frac amp source num fuel = _
    unfold beamformerTimeTraj
    rw [hw]
    simp only [hrun]
  rw [htr]
  refine ⟨by rw [h2, if_neg (by omega)], S, h1, h3, h4⟩

/-- The hypotheses of `C75_samples_partial` are met: -/
example := C75_samples_partial (K := ℚ) (G := 1) (M := 1) .squareNoDiag 20 (fun n => n / 2) (fun n _ _ => n / 2) (fun _ _ _ => 1 / 2) (fun _ _ _ => 1)
  (fun n => chunks n [![1], ![2], ![3], ![4], ![5]]) [![1], ![2], ![3], ![4], ![5]] 2 (by decide) (isBlocking_chunks (by decide) _) 10 (by decide)
  (fun _ _ _ => le_rfl) (fun n => by show n / 2 ≤ (n + 1) / 2 + 1; omega) (by decide)

/-- A grid at rest (constant largest delay `D0`): `N - D0 - 1` samples. -/
theorem C75_constant_delay (mode : BeamTimeMode) (T : ℕ) (D0 : ℕ) (off : ℕ → Fin G → Fin M → ℕ)
    (frac amp : ℕ → Fin G → Fin M → K) (source : ℕ → List (List (Fin M → K))) (data : List (Fin M → K)) (num : ℕ)
    (hn : 0 < num) (hsrc : IsBlocking num data (source num)) (fuel : ℕ) (hf : data.length < fuel)
    (hD : ∀ n gi mi, off n gi mi ≤ D0) (hT : data.length + num ≤ T) :
    (beamformerTimeTraj mode (fun _ => 1) T (fun _ => D0) off frac amp source num fuel).blocks.flatten.length =
      data.length - D0 - 1 := by
  obtain ⟨-, S, h1, h2, h3⟩ := C75_samples_partial mode T (fun _ => D0) off frac amp source data num hn hsrc fuel hf hD
    (fun n => by omega) hT
  rw [h1, List.length_map, List.length_range]
  have a : ∀ n < S, n + D0 + 1 < data.length := h2
  have b : data.length ≤ S + D0 + 1 := by
    rcases h3 with h | ⟨i, -, -, h⟩
    · exact h
    · omega
  rcases Nat.eq_zero_or_pos S with h0 | h0
  · omega
  · have := a (S - 1) (by omega)
    omega

/-- The hypotheses of `C75_constant_delay` are met: -/
example := C75_constant_delay (K := ℚ) (G := 1) (M := 1) .squareNoDiag 20 2 (fun _ _ _ => 2) (fun _ _ _ => 1 / 2) (fun _ _ _ => 1)
  (fun n => chunks n [![1], ![2], ![3], ![4], ![5]]) [![1], ![2], ![3], ![4], ![5]] 2 (by decide) (isBlocking_chunks (by decide) _) 10 (by decide)
  (fun _ _ _ => le_rfl) (by decide)

/-- A trajectory with fewer positions than one block: RuntimeError, whatever the data. -/
theorem C75_short_trajectory_violated (mode : BeamTimeMode) (weights : Fin M → K) (T : ℕ) (D : ℕ → ℕ)
    (off : ℕ → Fin G → Fin M → ℕ) (frac amp : ℕ → Fin G → Fin M → K) (source : ℕ → List (List (Fin M → K)))
    (num fuel : ℕ) (hT : T < num) :
    beamformerTimeTraj mode weights T D off frac amp source num fuel = .raise .runtimeError := by
  unfold beamformerTimeTraj
  simp only
  generalize (SBuf.loopDyn _ _ _ _ _ _ _).blocks = bs
  cases bs <;> rw [beamTrajLoop, if_pos (by omega)]

/-- Faster than sound towards the array: the number of rows counts samples that are not the first ones, and data behind
the end of the block are read. -/
theorem C75_supersonic_violated :
    let D : ℕ → ℕ := fun n => if n = 0 then 5 else 0
    (beamformerTimeTraj (K := ℚ) (M := 1) (G := 1) .signal (fun _ => 1) 100 D (fun n _ _ => D n) (fun _ _ _ => 0)
      (fun _ _ _ => 1) (fun _ => [[fun _ => 1, fun _ => 1], [fun _ => 1, fun _ => 1]]) 2 10).blocks.map
        (fun b => b.map fun row => row 0) = [[none]] := by
  decide +kernel

end traj

/-! ### CLEAN-T -/

section cleant
variable {σ ι β K : Type*}

/-- At most `n_iter` iterations are accepted, each one lowers the total power strictly, and the loop ends only because of
the number of iterations or because the next iteration would not lower the power.  The accepted contributions are those
of the states `s, next s, next (next s), ...`. -/
theorem C76_cleant [LinearOrder K] (next : σ → σ) (pow : σ → K) (peak : σ → ι) (col : σ → ι → β) (n : ℕ) (s : σ) :
    ∃ j ≤ n, (cleantLoop next pow peak col n s).1 = next^[j] s ∧
      (cleantLoop next pow peak col n s).2 =
        (List.range j).map (fun i : ℕ => (peak (next^[i] s), col (next^[i] s) (peak (next^[i] s)))) ∧
      (∀ i < j, pow (next^[i + 1] s) < pow (next^[i] s)) ∧
      (j = n ∨ ¬ pow (next^[j + 1] s) < pow (next^[j] s)) := by
  induction n generalizing s with
  | zero => exact ⟨0, Nat.le_refl _, rfl, rfl, fun i hi => by omega, Or.inl rfl⟩
  | succ n ih =>
    rw [cleantLoop]
    by_cases h : pow (next s) < pow s
    · obtain ⟨j, h1, h2, h3, h4, h5⟩ := ih (next s)
      simp only [if_pos h]
      refine ⟨j + 1, by omega, h2, ?_, ?_, ?_⟩
      · rw [h3, List.range_succ_eq_map, List.map_cons, List.map_map]
        rfl
      · intro i hi
        cases i with
        | zero => exact h
        | succ i => exact h4 i (by omega)
      · rcases h5 with h5 | h5
        · exact Or.inl (by omega)
        · exact Or.inr h5
    · simp only [if_neg h]
      exact ⟨0, by omega, rfl, rfl, fun i hi => by omega, Or.inr h⟩

private theorem foldl_if_sum [DecidableEq ι] [Field K] (damp : K) (acc : List (ι × (ℕ → K))) (g : ι) (n : ℕ) (s : K) :
    acc.foldl (fun s p => if p.1 = g then s + damp * p.2 n else s) s =
      s + damp * ((acc.filter fun p => decide (p.1 = g)).map fun p => p.2 n).sum := by
  induction acc generalizing s with
  | nil => simp
  | cons p l ih =>
    rw [List.foldl_cons, ih]
    by_cases h : p.1 = g
    · rw [if_pos h, List.filter_cons_of_pos (by simpa using h), List.map_cons, List.sum_cons]; ring
    · rw [if_neg h, List.filter_cons_of_neg (by simpa using h)]

/-- The deconvolved signal at a grid point is the damping factor times the sum of the accepted contributions there, zero
where no peak was found. -/
theorem C76_gamma [DecidableEq ι] [Field K] (damp : K) (acc : List (ι × (ℕ → K))) (g : ι) (n : ℕ) :
    cleantGamma damp acc g n = damp * ((acc.filter fun p => decide (p.1 = g)).map fun p => p.2 n).sum ∧
    ((∀ p ∈ acc, p.1 ≠ g) → cleantGamma damp acc g n = 0) := by
  have h : cleantGamma damp acc g n = damp * ((acc.filter fun p => decide (p.1 = g)).map fun p => p.2 n).sum := by
    unfold cleantGamma; rw [foldl_if_sum, zero_add]
  refine ⟨h, fun hg => ?_⟩
  have hf : acc.filter (fun p => decide (p.1 = g)) = [] := by
    rw [List.filter_eq_nil_iff]
    intro p hp
    simpa using hg p hp
  rw [h, hf]
  simp

-- an accepted and then a rejected iteration
example : (cleantLoop (fun s : ℕ => s / 2) (fun s => s) (fun _ => (0 : ℕ)) (fun s _ => s) 10 4) = (0, [(0, 4), (0, 2), (0, 1)]) := by
  decide

end cleant

/-! ### Sector integration -/

section sector
variable {K : Type*} [Field K] [LinearOrder K] [IsStrictOrderedRing K] {G : ℕ}

private theorem foldl_max_mem (l : List K) (v : K) : l.foldl max v = v ∨ l.foldl max v ∈ l := by
  induction l generalizing v with
  | nil => exact Or.inl rfl
  | cons y l ih =>
    rw [List.foldl_cons]
    rcases ih (max v y) with h | h
    · rcases max_choice v y with hh | hh
      · left; rw [h, hh]
      · right; rw [h, hh]; simp
    · right; simp [h]

/-- If every value is zero or above the clipping level of the largest value of all data, the result is the sum over the
sector at every sample, for every block size. -/
theorem C77_sum_partial (kappa : K) (hk : 0 ≤ kappa) (sectors : List (List (Fin G))) (data : List (Fin G → K))
    (top : K) (htop : ∀ row ∈ data, ∀ g, row g ≤ top) (h : ∀ row ∈ data, ∀ g, row g = 0 ∨ top * kappa < row g)
    (num : ℕ) (blocks : List (List (Fin G → K))) (hb : IsBlocking num data blocks) :
    (sectorTime kappa sectors blocks).flatten = data.map fun row => sectors.map fun s => (s.map row).sum := by
  have key : ∀ b : List (Fin G → K), (∀ row ∈ b, row ∈ data) →
      sectorBlock kappa sectors b = b.map fun row => sectors.map fun s => (s.map row).sum := by
    intro b hbd
    unfold sectorBlock
    simp only
    generalize hv : (b.flatMap fun row => (List.finRange G).map row) = vals
    cases vals with
    | nil =>
      apply List.map_congr_left
      intro row hrow
      apply List.map_congr_left
      intro s _
      have hG : List.finRange G = [] := by
        rw [List.flatMap_eq_nil_iff] at hv
        have := hv row hrow
        simpa using this
      have hs : s = [] := by
        cases s with
        | nil => rfl
        | cons g _ => have := List.mem_finRange g; rw [hG] at this; simp at this
      simp [hs]
    | cons v l =>
      have hmem : ∀ x ∈ v :: l, x ≤ top := by
        intro x hx
        rw [← hv, List.mem_flatMap] at hx
        obtain ⟨row, h1, h2⟩ := hx
        rw [List.mem_map] at h2
        obtain ⟨g, -, rfl⟩ := h2
        exact htop row (hbd row h1) g
      have hmax : l.foldl max v ≤ top := by
        rcases foldl_max_mem l v with h1 | h1
        · rw [h1]; exact hmem v (by simp)
        · exact hmem _ (List.mem_cons_of_mem _ h1)
      apply List.map_congr_left
      intro row hrow
      apply List.map_congr_left
      intro s _
      congr 1
      apply List.map_congr_left
      intro g _
      by_cases hc : row g > l.foldl max v * kappa
      · rw [if_pos hc]
      · rw [if_neg hc]
        rcases h row (hbd row hrow) g with h0 | h0
        · exact h0.symm
        · exact absurd (lt_of_le_of_lt (mul_le_mul_of_nonneg_right hmax hk) h0) hc
  unfold sectorTime
  rw [← hb.cover, List.map_flatten]
  congr 1
  apply List.map_congr_left
  intro b hbm
  apply key
  intro row hrow
  rw [← hb.cover]
  exact List.mem_flatten.2 ⟨b, hbm, hrow⟩

/-- The hypotheses of `C77_sum_partial` are met: -/
example := C77_sum_partial (K := ℚ) (G := 2) (1 / 2) (by norm_num) [[0], [0, 1]] [![3, 0], ![4, 3]] 4
  (by intro row hrow g; fin_cases hrow <;> fin_cases g <;> norm_num) (by intro row hrow g; fin_cases hrow <;> fin_cases g <;> norm_num)
  1 _ (isBlocking_chunks (by decide) _)

/-- In general the result depends on the block size, because the clipping level is that of the block. -/
theorem C77_block_size_violated :
    (sectorTime (1 / 2 : ℚ) [[(0 : Fin 1)]] [[fun _ => 1], [fun _ => 4]]).flatten ≠
      (sectorTime (1 / 2 : ℚ) [[(0 : Fin 1)]] [[fun _ => 1, fun _ => 4]]).flatten := by
  decide +kernel

-- hypotheses of `C77_sum_partial` with two samples and two points
example : ∀ row ∈ [![(3 : ℚ), 0], ![4, 3]], ∀ g, row g = 0 ∨ (4 : ℚ) * (1 / 2) < row g := by
  intro row hrow g
  fin_cases hrow <;> fin_cases g <;> norm_num

end sector

end Acoular
