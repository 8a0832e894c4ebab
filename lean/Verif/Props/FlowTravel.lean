import Verif.Model.FlowNan
import Verif.Props.Env

/-!
# C168: travel in a uniform flow
-/

namespace Acoular

open Spec Real

private theorem lsq (v : Fin 3 → ℝ) : len3 v ^ 2 = v 0 ^ 2 + v 1 ^ 2 + v 2 ^ 2 :=
  Real.sq_sqrt (by positivity)

private theorem lnn (v : Fin 3 → ℝ) : 0 ≤ len3 v := Real.sqrt_nonneg _

private theorem lpos {v : Fin 3 → ℝ} (h : v ≠ 0) : 0 < len3 v := by
  refine Real.sqrt_pos.2 ?_
  by_contra hc
  apply h
  have h0 := sq_nonneg (v 0)
  have h1 := sq_nonneg (v 1)
  have h2 := sq_nonneg (v 2)
  have e0 : v 0 = 0 := by rw [← sq_eq_zero_iff]; linarith
  have e1 : v 1 = 0 := by rw [← sq_eq_zero_iff]; linarith
  have e2 : v 2 = 0 := by rw [← sq_eq_zero_iff]; linarith
  funext i; fin_cases i <;> simp [e0, e1, e2]

private theorem usq {v : Fin 3 → ℝ} (h : v ≠ 0) : unit3 v 0 ^ 2 + unit3 v 1 ^ 2 + unit3 v 2 ^ 2 = 1 := by
  have h1 := lpos h
  have h2 := lsq v
  unfold unit3
  field_simp
  linarith

private theorem tri (a b : Fin 3 → ℝ) : len3 (fun i => a i + b i) ≤ len3 a + len3 b := by
  have h : a 0 * b 0 + a 1 * b 1 + a 2 * b 2 ≤ len3 a * len3 b := by
    refine le_of_sq_le_sq_of_nonneg ?_ (mul_nonneg (lnn a) (lnn b))
    rw [mul_pow, lsq, lsq]
    nlinarith [sq_nonneg (a 0 * b 1 - a 1 * b 0), sq_nonneg (a 0 * b 2 - a 2 * b 0), sq_nonneg (a 1 * b 2 - a 2 * b 1)]
  refine (pow_le_pow_iff_left₀ (lnn _) (add_nonneg (lnn a) (lnn b)) two_ne_zero).1 ?_
  have ha := lsq a
  have hb := lsq b
  rw [lsq]
  nlinarith
where
  le_of_sq_le_sq_of_nonneg {x y : ℝ} (h : x ^ 2 ≤ y ^ 2) (hy : 0 ≤ y) : x ≤ y := by
    by_contra hc
    push Not at hc
    nlinarith

/-- The quadratic equation of the travel distance. -/
private theorem quad {M : ℝ} {e g m : Fin 3 → ℝ} (he : e 0 ^ 2 + e 1 ^ 2 + e 2 ^ 2 = 1) (d : ℝ) :
    len3 (fun i => m i - (g i + M * d * e i)) ^ 2 - d ^ 2 =
      -((1 - M ^ 2) * d ^ 2 + 2 * M * ((m 0 - g 0) * e 0 + (m 1 - g 1) * e 1 + (m 2 - g 2) * e 2) * d -
        ((m 0 - g 0) ^ 2 + (m 1 - g 1) ^ 2 + (m 2 - g 2) ^ 2)) := by
  rw [lsq]
  linear_combination M ^ 2 * d ^ 2 * he

/-- **C168: no detour is faster.** Sound that goes by way of a third point takes at least as long. -/
theorem C168_detour (M : ℝ) (f g p m : Fin 3 → ℝ) (hM : |M| < 1) (hf : f ≠ 0) (hgp : g ≠ p) (hpm : p ≠ m) (hgm : g ≠ m) :
    flowEntry M f g m ≤ flowEntry M f g p + flowEntry M f p m := by
  obtain ⟨h1, r1, -⟩ := C34_uniform_flow M f g p hM hf hgp
  obtain ⟨h2, r2, -⟩ := C34_uniform_flow M f p m hM hf hpm
  obtain ⟨h0, r0, -⟩ := C34_uniform_flow M f g m hM hf hgm
  have hu := usq hf
  set e := unit3 f
  set d := flowEntry M f g m
  set d1 := flowEntry M f g p
  set d2 := flowEntry M f p m
  have hM2 : 0 < 1 - M ^ 2 := by
    have := abs_nonneg M
    rw [← sq_abs]; nlinarith
  have hle : len3 (fun i => m i - (g i + M * (d1 + d2) * e i)) ≤ d1 + d2 := by
    have := tri (fun i => p i - (g i + M * d1 * e i)) (fun i => m i - (p i + M * d2 * e i))
    rw [r1.2, r2.2] at this
    refine le_trans (le_of_eq (congrArg len3 (funext fun i => ?_))) this
    ring
  have hsq : len3 (fun i => m i - (g i + M * (d1 + d2) * e i)) ^ 2 - (d1 + d2) ^ 2 ≤ 0 := by
    nlinarith [lnn fun i => m i - (g i + M * (d1 + d2) * e i)]
  rw [quad hu] at hsq
  have hq : len3 (fun i => m i - (g i + M * d * e i)) ^ 2 - d ^ 2 = 0 := by rw [r0.2, sub_self]
  rw [quad hu] at hq
  have hR : 0 < (m 0 - g 0) ^ 2 + (m 1 - g 1) ^ 2 + (m 2 - g 2) ^ 2 := by
    have := lpos (v := fun i => m i - g i) fun h => hgm (funext fun i => by have := congrFun h i; simp at this; linarith)
    have h' := lsq fun i => m i - g i
    rw [← h']
    positivity
  set s := (m 0 - g 0) * e 0 + (m 1 - g 1) * e 1 + (m 2 - g 2) * e 2
  set R := (m 0 - g 0) ^ 2 + (m 1 - g 1) ^ 2 + (m 2 - g 2) ^ 2
  by_contra hlt
  push Not at hlt
  -- the quadratic function is not negative at `d1 + d2 < d` and zero at `d`
  have h3 : (d - (d1 + d2)) * ((1 - M ^ 2) * (d + (d1 + d2)) + 2 * M * s) ≤ 0 := by nlinarith
  have h4 : (1 - M ^ 2) * (d + (d1 + d2)) + 2 * M * s ≤ 0 := by
    by_contra hc
    push Not at hc
    exact absurd h3 (not_le.2 (mul_pos (by linarith) hc))
  have h5 : d * ((1 - M ^ 2) * d + 2 * M * s) = R := by linarith
  have h6 : (1 - M ^ 2) * d + 2 * M * s ≤ 0 := by nlinarith
  nlinarith

/-- The hypotheses of `C168_detour` are met. -/
example := C168_detour (1 / 4) ![1, 1, 0] 0 ![1, 0, 0] ![1, 2, 3] (by rw [abs_of_pos] <;> norm_num)
  (fun h => by have := congrFun h 0; simp at this) (fun h => by have := congrFun h 0; simp at this)
  (fun h => by have := congrFun h 1; simp at this) (fun h => by have := congrFun h 0; simp at this)

/-- **C168: sound goes straight on.** The distance is divided in the same ratio as the line. -/
theorem C168_straight (M t : ℝ) (f g m : Fin 3 → ℝ) (hM : |M| < 1) (hf : f ≠ 0) (hgm : g ≠ m) (ht : 0 < t) (ht1 : t < 1) :
    let p : Fin 3 → ℝ := fun i => g i + t * (m i - g i)
    flowEntry M f g p = t * flowEntry M f g m ∧ flowEntry M f p m = (1 - t) * flowEntry M f g m := by
  intro p
  obtain ⟨h0, r0, -⟩ := C34_uniform_flow M f g m hM hf hgm
  have hs : ∀ (a : ℝ) (v : Fin 3 → ℝ), 0 ≤ a → len3 (fun i => a * v i) = a * len3 v := by
    intro a v ha
    refine (pow_left_inj₀ (lnn _) (mul_nonneg ha (lnn _)) two_ne_zero).1 ?_
    rw [mul_pow, lsq, lsq]
    ring
  have hne : ∃ i, g i ≠ m i := by
    by_contra hc
    push Not at hc
    exact hgm (funext hc)
  obtain ⟨i0, hi0⟩ := hne
  have hgp : g ≠ p := fun h => by
    have h' : g i0 = g i0 + t * (m i0 - g i0) := congrFun h i0
    rcases mul_eq_zero.1 (show t * (m i0 - g i0) = 0 by linarith) with h1 | h1
    · exact ht.ne' h1
    · exact hi0 (by linarith)
  have hpm : p ≠ m := fun h => by
    have h' : g i0 + t * (m i0 - g i0) = m i0 := congrFun h i0
    rcases mul_eq_zero.1 (show (1 - t) * (m i0 - g i0) = 0 by linarith) with h1 | h1
    · linarith
    · exact hi0 (by linarith)
  constructor
  · refine ((C34_uniform_flow M f g p hM hf hgp).2.2 _ ⟨by positivity, ?_⟩).symm
    refine Eq.trans ?_ ((hs t _ ht.le).trans (congrArg (t * ·) r0.2))
    refine congrArg len3 (funext fun i => ?_)
    simp only [p]
    ring
  · refine ((C34_uniform_flow M f p m hM hf hpm).2.2 _ ⟨mul_nonneg (by linarith) h0.le, ?_⟩).symm
    refine Eq.trans ?_ ((hs (1 - t) _ (by linarith)).trans (congrArg ((1 - t) * ·) r0.2))
    refine congrArg len3 (funext fun i => ?_)
    simp only [p]
    ring

/-- The hypotheses of `C168_straight` are met. -/
example := C168_straight (1 / 4) (1 / 3) ![1, 1, 0] 0 ![1, 2, 3] (by rw [abs_of_pos] <;> norm_num)
  (fun h => by have := congrFun h 0; simp at this) (fun h => by have := congrFun h 0; simp at this) (by norm_num) (by norm_num)

/-- **C168: reciprocity.** Source and receiver exchanged and the flow reversed (by the sign of the Mach number or of the direction): the same
distance, at any Mach number. -/
theorem C168_reversed (M : ℝ) (f g m : Fin 3 → ℝ) :
    flowEntry (-M) f m g = flowEntry M f g m ∧ flowEntry M (fun i => -f i) m g = flowEntry M f g m := by
  have e1 : ∀ i, m i - g i = -(g i - m i) := fun i => by ring
  constructor
  · unfold flowEntry
    simp only [e1, neg_mul_neg]
    congr 4 <;> ring
  · unfold flowEntry
    simp only [e1, neg_mul_neg, neg_div]

/-- **C168: reciprocity, tables.** The table with grid and microphones exchanged and the flow reversed is the transpose. -/
theorem C168_reversed_table (M : ℝ) (f : Fin 3 → ℝ) (gpos mpos : List (Fin 3 → ℝ)) (hg : gpos.length ≠ 1) (hm : mpos.length ≠ 1) :
    ∃ t t', uniformFlowR M f gpos (some mpos) = .mat t ∧ uniformFlowR (-M) f mpos (some gpos) = .mat t' ∧
      ∀ n k, n < gpos.length → k < mpos.length → ∃ row row' d, t[n]? = some row ∧ row[k]? = some d ∧ t'[k]? = some row' ∧ row'[n]? = some d := by
  refine ⟨gpos.map fun g => mpos.map fun m => flowEntry M f g m, mpos.map fun g => gpos.map fun m => flowEntry (-M) f g m, ?_, ?_, ?_⟩
  · unfold uniformFlowR distTable
    simp only [Option.getD_some, if_neg hm]
  · unfold uniformFlowR distTable
    simp only [Option.getD_some, if_neg hg]
  · intro n k hn hk
    refine ⟨mpos.map fun m => flowEntry M f gpos[n] m, gpos.map fun m => flowEntry (-M) f mpos[k] m, flowEntry M f gpos[n] mpos[k], ?_, ?_, ?_, ?_⟩
    · rw [List.getElem?_map, List.getElem?_eq_getElem hn, Option.map_some]
    · rw [List.getElem?_map, List.getElem?_eq_getElem hk, Option.map_some]
    · rw [List.getElem?_map, List.getElem?_eq_getElem hk, Option.map_some]
    · rw [List.getElem?_map, List.getElem?_eq_getElem hn, Option.map_some, (C168_reversed M f _ _).1]

/-- The hypotheses of `C168_reversed_table` are met. -/
example : ([0, ![1, 2, 3]] : List (Fin 3 → ℝ)).length ≠ 1 := by decide

/-- **C168: only the velocity matters**, not the length of `fdv` nor how the sign is given; **and only the relative position**. -/
theorem C168_velocity (M a : ℝ) (ha : 0 < a) (f g m v : Fin 3 → ℝ) :
    flowEntry M (fun i => a * f i) g m = flowEntry M f g m ∧ flowEntry (-M) (fun i => -f i) g m = flowEntry M f g m ∧
      flowEntry M f (fun i => g i + v i) (fun i => m i + v i) = flowEntry M f g m := by
  refine ⟨?_, ?_, ?_⟩
  · have e : √(a * f 0 * (a * f 0) + a * f 1 * (a * f 1) + a * f 2 * (a * f 2)) = a * √(f 0 * f 0 + f 1 * f 1 + f 2 * f 2) := by
      rw [show a * f 0 * (a * f 0) + a * f 1 * (a * f 1) + a * f 2 * (a * f 2) = a ^ 2 * (f 0 * f 0 + f 1 * f 1 + f 2 * f 2) by ring,
        Real.sqrt_mul (by positivity), Real.sqrt_sq ha.le]
    unfold flowEntry
    simp only [e, mul_div_mul_left _ _ ha.ne']
  · rw [(C168_reversed M (fun i => -f i) m g).1, (C168_reversed M f g m).2]
  · unfold flowEntry
    simp only [add_sub_add_right_eq_sub]

/-- The hypothesis of `C168_velocity` is met. -/
example : (0 : ℝ) < 2 := by norm_num

/-- **C168: there and back.** The difference of the two distances is the component of the line along the flow, times `2 M/(1 - M²)`:
with the flow it is shorter. -/
theorem C168_there_and_back (M : ℝ) (f g m : Fin 3 → ℝ) (hM : |M| < 1) (hf : f ≠ 0) (hgm : g ≠ m) :
    flowEntry M f m g - flowEntry M f g m = 2 * M / (1 - M ^ 2) * inner3 (fun i => m i - g i) (unit3 f) := by
  obtain ⟨h1, r1, -⟩ := C34_uniform_flow M f g m hM hf hgm
  obtain ⟨h2, r2, -⟩ := C34_uniform_flow M f m g hM hf hgm.symm
  have hu := usq hf
  have hM2 : 0 < 1 - M ^ 2 := by
    have := abs_nonneg M
    rw [← sq_abs]; nlinarith
  set e := unit3 f
  set d := flowEntry M f g m
  set d' := flowEntry M f m g
  have q1 : len3 (fun i => m i - (g i + M * d * e i)) ^ 2 - d ^ 2 = 0 := by rw [r1.2, sub_self]
  have q2 : len3 (fun i => g i - (m i + M * d' * e i)) ^ 2 - d' ^ 2 = 0 := by rw [r2.2, sub_self]
  rw [quad hu] at q1 q2
  have h3 : (d' + d) * ((1 - M ^ 2) * (d' - d) - 2 * M * inner3 (fun i => m i - g i) e) = 0 := by
    unfold inner3
    linear_combination q1 - q2
  have h4 := (mul_eq_zero.1 h3).resolve_left (by positivity)
  field_simp
  linarith

/-- The hypotheses of `C168_there_and_back` are met. -/
example := C168_there_and_back (1 / 4) ![1, 1, 0] 0 ![1, 2, 3] (by rw [abs_of_pos] <;> norm_num)
  (fun h => by have := congrFun h 0; simp at this) (fun h => by have := congrFun h 0; simp at this)

/-- **C168: numbers.** In a subsonic flow in some direction the entry for two distinct points is a number, the travel distance. -/
theorem C168_number_partial (M : ℝ) (f g m : Fin 3 → ℝ) (hM : |M| < 1) (hf : f ≠ 0) (hgm : g ≠ m) :
    ∃ d, flowEntryFl M f g m = some d ∧ 0 < d ∧ ∀ d', Reaches M (unit3 f) g m d' ↔ d' = d := by
  obtain ⟨h1, r1, u1⟩ := C34_uniform_flow M f g m hM hf hgm
  have e1 : ∀ v : Fin 3 → ℝ, √(v 0 * v 0 + v 1 * v 1 + v 2 * v 2) = len3 v := fun v => by
    unfold len3; simp only [pow_two]
  have hr : (fun i => g i - m i) ≠ 0 := fun h => hgm (funext fun i => by have := congrFun h i; simp at this; linarith)
  have hM2 : M * M < 1 := by
    have := abs_nonneg M
    rw [← abs_mul_abs_self]; nlinarith
  refine ⟨flowEntry M f g m, ?_, h1, fun d' => ⟨u1 d', fun h => h ▸ r1⟩⟩
  have n0 := (lpos hf).ne'
  have r0 := (lpos hr).ne'
  rw [← e1] at n0 r0
  unfold flowEntryFl
  simp only [if_neg n0]
  rw [if_neg r0, if_neg (by nlinarith [mul_self_nonneg (M * ((g 0 - m 0) * (f 0 / √(f 0 * f 0 + f 1 * f 1 + f 2 * f 2)) + (g 1 - m 1) * (f 1 / √(f 0 * f 0 + f 1 * f 1 + f 2 * f 2)) + (g 2 - m 2) * (f 2 / √(f 0 * f 0 + f 1 * f 1 + f 2 * f 2))) / √((g 0 - m 0) * (g 0 - m 0) + (g 1 - m 1) * (g 1 - m 1) + (g 2 - m 2) * (g 2 - m 2)))])]
  rw [if_neg]
  · rfl
  · intro hd
    have : flowEntry M f g m = 0 := by
      unfold flowEntry
      simp only [hd, div_zero, mul_zero]
    exact h1.ne' this

/-- The hypotheses of `C168_number_partial` are met. -/
example := C168_number_partial (1 / 4) ![1, 1, 0] 0 ![1, 2, 3] (by rw [abs_of_pos] <;> norm_num)
  (fun h => by have := congrFun h 0; simp at this) (fun h => by have := congrFun h 0; simp at this)

/-- **C168 fails for a point on a microphone** (or at the origin, for the reference distance): not a number, at any Mach number, also
without flow, where `Environment` gives zero. -/
theorem C168_coincident_violated (M : ℝ) (f g : Fin 3 → ℝ) : flowEntryFl M f g g = none ∧ distEntry g g = 0 := by
  constructor
  · unfold flowEntryFl
    simp
  · simp [distEntry]

/-- **C168 fails for a direction of length zero**, which is not refused: not a number, also without flow. -/
theorem C168_direction_violated (M : ℝ) (g m : Fin 3 → ℝ) : flowEntryFl M 0 g m = none := by
  unfold flowEntryFl
  simp

/-- **C168 fails for supersonic flow**, which is not refused: a microphone beside the source, where no sound arrives, is given a value that is
not a number. -/
theorem C168_supersonic_violated (M a : ℝ) (hM : 1 < |M|) (ha : a ≠ 0) : flowEntryFl M ![1, 0, 0] 0 ![0, a, 0] = none ∧
    ¬ ∃ d, Reaches M (unit3 ![1, 0, 0]) 0 ![0, a, 0] d := by
  have hM2 : 1 < M * M := by
    rw [← abs_mul_abs_self]; nlinarith
  constructor
  · unfold flowEntryFl
    simp
    intro _ h
    linarith
  · rintro ⟨d, h0, hd⟩
    have h1 := congrArg (· ^ 2) hd
    simp only [unit3, len3] at h1
    simp at h1
    rw [Real.sq_sqrt (by positivity), mul_pow] at h1
    nlinarith [sq_nonneg d, mul_self_pos.2 ha, mul_nonneg (sq_nonneg d) (by linarith : (0:ℝ) ≤ M * M - 1)]

/-- The hypotheses of `C168_supersonic_violated` are met. -/
example : (1 : ℝ) < |2| ∧ (1 : ℝ) ≠ 0 := by norm_num

end Acoular
