import Verif.Model.Level
import Mathlib.Analysis.SpecialFunctions.Pow.Real

/-!
# C110: sound pressure level
-/

namespace Acoular

/-- Level of a squared sound pressure re 20 µPa, in dB. -/
noncomputable def Spec.soundPressureLevel (x : ℝ) : ℝ := 10 * Real.logb 10 (x / (20e-6) ^ 2)

/-- Squared sound pressure of a level in dB re 20 µPa. -/
noncomputable def Spec.squaredPressure (level : ℝ) : ℝ := (20e-6) ^ 2 * (10 : ℝ) ^ (level / 10)

open Spec

private theorem ref : ((20e-6 : ℝ)) ^ 2 = 4e-10 := by norm_num

private theorem floor_log : Real.logb 10 (1e-35 : ℝ) = -35 := by
  rw [show (1e-35 : ℝ) = (10 : ℝ) ^ (-35 : ℝ) by
    rw [show (-35 : ℝ) = ((-35 : ℤ) : ℝ) by norm_num, Real.rpow_intCast]; norm_num]
  exact Real.logb_rpow (by norm_num) (by norm_num)

/-- **C110** From `4e-45` on the level is the sound pressure level, and every other value, negative ones included,
gives -350 dB. -/
theorem C110_level (x : ℝ) :
    (4e-45 ≤ x → levelDb x = soundPressureLevel x) ∧ (x ≤ 4e-45 → levelDb x = -350) := by
  constructor
  · intro h
    unfold levelDb soundPressureLevel
    rw [ref, max_eq_left]
    rw [le_div_iff₀ (by norm_num)]
    calc (1e-35 : ℝ) * 4e-10 = 4e-45 := by norm_num
      _ ≤ x := h
  · intro h
    unfold levelDb
    rw [max_eq_right, floor_log]
    · norm_num
    · rw [div_le_iff₀ (by norm_num)]
      calc x ≤ 4e-45 := h
        _ = (1e-35 : ℝ) * 4e-10 := by norm_num

/-- **C110** Levels are never below -350 dB and never decrease with the squared pressure; they tell values above the
floor apart. -/
theorem C110_order : (∀ x, -350 ≤ levelDb x) ∧ Monotone levelDb ∧ StrictMonoOn levelDb (Set.Ici 4e-45) := by
  have hf : (0 : ℝ) < 1e-35 := by norm_num
  refine ⟨fun x => ?_, fun x y h => ?_, fun x hx y hy h => ?_⟩
  · have : Real.logb 10 (1e-35 : ℝ) ≤ Real.logb 10 (max (x / 4e-10) 1e-35) :=
      Real.logb_le_logb_of_le (by norm_num) hf (le_max_right _ _)
    rw [floor_log] at this
    unfold levelDb
    linarith
  · unfold levelDb
    have : max (x / 4e-10) 1e-35 ≤ max (y / 4e-10) (1e-35 : ℝ) :=
      max_le_max (div_le_div_of_nonneg_right h (by norm_num)) (le_refl _)
    have := Real.logb_le_logb_of_le (b := 10) (by norm_num) (lt_of_lt_of_le hf (le_max_right _ _)) this
    linarith
  · have hx' : (0 : ℝ) < x := lt_of_lt_of_le (by norm_num) (Set.mem_Ici.1 hx)
    rw [(C110_level x).1 hx, (C110_level y).1 hy]
    unfold soundPressureLevel
    have := Real.logb_lt_logb (b := 10) (by norm_num) (by positivity : 0 < x / (20e-6 : ℝ) ^ 2)
      (div_lt_div_of_pos_right h (by norm_num))
    linarith

/-- **C110** The squared pressure is recovered from the level, and the level of a sum is the energetic sum. -/
theorem C110_round_trip (x y : ℝ) (hx : 4e-45 ≤ x) (hy : 4e-45 ≤ y) :
    squaredPressure (levelDb x) = x ∧ levelDb (x + y) = soundPressureLevel (squaredPressure (levelDb x) + squaredPressure (levelDb y)) := by
  have key : ∀ x : ℝ, 4e-45 ≤ x → squaredPressure (levelDb x) = x := by
    intro x hx
    have hx' : (0 : ℝ) < x := lt_of_lt_of_le (by norm_num) hx
    rw [(C110_level x).1 hx]
    unfold squaredPressure soundPressureLevel
    rw [mul_div_cancel_left₀ _ (by norm_num), Real.rpow_logb (by norm_num) (by norm_num) (by positivity)]
    exact mul_div_cancel₀ _ (by norm_num)
  have h0 : (0 : ℝ) ≤ 4e-45 := by norm_num
  refine ⟨key x hx, ?_⟩
  rw [key x hx, key y hy, (C110_level (x + y)).1 (by linarith)]

/-- The hypotheses of `C110_round_trip` are met: -/
example := C110_round_trip 1 3 (by norm_num) (by norm_num)

/-- **C110** A gain of `10 ^ (g / 10)` adds `g` dB. -/
theorem C110_gain (x g : ℝ) (hx : 4e-45 ≤ x) (hg : 4e-45 ≤ (10 : ℝ) ^ (g / 10) * x) :
    levelDb ((10 : ℝ) ^ (g / 10) * x) = levelDb x + g := by
  have hx' : (0 : ℝ) < x := lt_of_lt_of_le (by norm_num) hx
  rw [(C110_level _).1 hg, (C110_level x).1 hx]
  unfold soundPressureLevel
  rw [mul_div_assoc, Real.logb_mul (by positivity) (by positivity), Real.logb_rpow (by norm_num) (by norm_num)]
  ring

/-- 1 Pa² is above the floor, zero is not. -/
example : (4e-45 : ℝ) ≤ 1 ∧ levelDb 0 = -350 := ⟨by norm_num, (C110_level 0).2 (by norm_num)⟩

end Acoular
