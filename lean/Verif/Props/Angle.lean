import Verif.Model.Angle
import Mathlib.Algebra.Order.Field.Basic
import Mathlib.Tactic.Linarith
import Mathlib.Tactic.FieldSimp
import Mathlib.Tactic.Ring

/-!
# C96, C97: angle and speed of rotation from trigger data
-/

namespace Acoular

/-- What all interpolating splines do: points on a line, at increasing positions, give this line. -/
def Spec.ReproducesLines (spline : List (ℤ × ℕ) → ℤ → ℚ) : Prop :=
  ∀ (pts : List (ℤ × ℕ)) (a b : ℚ), 4 ≤ pts.length → pts.Pairwise (fun p q => p.1 < q.1) →
    (∀ p ∈ pts, (p.2 : ℚ) = a * p.1 + b) → ∀ x, spline pts x = a * x + b

/-- … and the slope is that of the line. -/
def Spec.ReproducesSlopes (slope : List (ℤ × ℕ) → ℤ → ℚ) : Prop :=
  ∀ (pts : List (ℤ × ℕ)) (a b : ℚ), 4 ≤ pts.length → pts.Pairwise (fun p q => p.1 < q.1) →
    (∀ p ∈ pts, (p.2 : ℚ) = a * p.1 + b) → ∀ x, slope pts x = a

/-- Trigger positions of a uniform rotation: `n` triggers, the first at `p0`, `d` samples apart. -/
def Spec.uniformPeaks (p0 d n : ℕ) : List ℤ := (List.range n).map fun k : ℕ => (p0 : ℤ) + k * d

open Spec

theorem argminList_spec' {K : Type*} [LinearOrder K] : ∀ l : List K, l ≠ [] → ∃ a, l[argminList l]? = some a ∧ ∀ b ∈ l, a ≤ b
  | [], h => absurd rfl h
  | [a], _ => ⟨a, rfl, by simp⟩
  | a :: b :: l, _ => by
    obtain ⟨c, hc, hmin⟩ := argminList_spec' (b :: l) (by simp)
    have hd : (b :: l).getD (argminList (b :: l)) a = c := by simp [List.getD, hc]
    have e : argminList (a :: b :: l) = if a ≤ (b :: l).getD (argminList (b :: l)) a then 0 else argminList (b :: l) + 1 := rfl
    rw [e, hd]
    split
    · rename_i h
      refine ⟨a, rfl, ?_⟩
      intro x hx
      rcases List.mem_cons.1 hx with rfl | hx
      · exact le_rfl
      · exact h.trans (hmin x hx)
    · rename_i h
      refine ⟨c, by simpa using hc, ?_⟩
      intro x hx
      rcases List.mem_cons.1 hx with rfl | hx
      · exact (not_le.1 h).le
      · exact hmin x hx

theorem uniform_get (p0 d n k : ℕ) (hk : k < n) : (uniformPeaks p0 d n)[k]? = some ((p0 : ℤ) + k * d) := by
  unfold uniformPeaks
  rw [List.getElem?_map, List.getElem?_range hk, Option.map_some]

/-- The nearest trigger exists and no other is nearer. -/
theorem nearestIdx_spec (p0 d n : ℕ) (hn : 0 < n) (v : ℤ) :
    nearestIdx (uniformPeaks p0 d n) v < n ∧
      ∀ k, k < n → |(p0 : ℤ) + (nearestIdx (uniformPeaks p0 d n) v : ℤ) * d - v| ≤ |(p0 : ℤ) + k * d - v| := by
  have hne : (uniformPeaks p0 d n).map (fun p => |p - v|) ≠ [] := by
    simp [uniformPeaks]; omega
  obtain ⟨a, ha, hmin⟩ := argminList_spec' _ hne
  have hj : nearestIdx (uniformPeaks p0 d n) v < n := by
    have := (List.getElem?_eq_some_iff.1 ha).1
    simpa [uniformPeaks, nearestIdx] using this
  refine ⟨hj, fun k hk => ?_⟩
  have hj' := uniform_get p0 d n _ hj
  have e : |(p0 : ℤ) + (nearestIdx (uniformPeaks p0 d n) v : ℤ) * d - v| = a := by
    rw [List.getElem?_map] at ha
    change (Option.map _ (uniformPeaks p0 d n)[nearestIdx (uniformPeaks p0 d n) v]?) = _ at ha
    rw [hj'] at ha
    simpa using ha
  rw [e]
  refine hmin _ (List.mem_map.2 ⟨(p0 : ℤ) + k * d, ?_, rfl⟩)
  exact List.mem_map.2 ⟨k, List.mem_range.2 hk, rfl⟩

theorem uniform_slice (p0 d n m points : ℕ) (h : m + points ≤ n) :
    splinePoints points (slice (uniformPeaks p0 d n) m (m + points)) =
      .ok ((List.range points).map fun k : ℕ => ((p0 : ℤ) + ((m + k : ℕ) : ℤ) * d, k)) := by
  have hs : slice (uniformPeaks p0 d n) m (m + points) = (List.range points).map fun k : ℕ => (p0 : ℤ) + ((m + k : ℕ) : ℤ) * d := by
    unfold slice uniformPeaks
    refine List.ext_getElem? fun i => ?_
    rw [List.getElem?_drop, List.getElem?_take, List.getElem?_map, List.getElem?_map]
    by_cases hi : i < points
    · rw [if_pos (by omega), List.getElem?_range (by omega), List.getElem?_range hi]
      rfl
    · rw [if_neg (by omega), List.getElem?_eq_none (by simpa using hi)]
      rfl
  unfold splinePoints
  rw [hs, if_pos (by simp)]
  congr 1
  refine List.ext_getElem (by simp) fun i h1 h2 => ?_
  simp

/-- The points of the spline for a uniform rotation: triggers `m, …, m + points - 1` with the numbers `0, …, points - 1`. -/
theorem uniform_window (p0 d n points ind : ℕ) (hd : 0 < d) (hp : p0 < d) (hn : 2 * points ≤ n) (hpt : 4 ≤ points)
    (hind : ind < (n + 1) * d) :
    ∃ m, m + points ≤ n ∧ (ind < p0 + points * d → m = ind / d) ∧ angleWindow points (uniformPeaks p0 d n) ind =
      .ok ((List.range points).map fun k : ℕ => ((p0 : ℤ) + ((m + k : ℕ) : ℤ) * d, k)) := by
  obtain ⟨hj, hmin⟩ := nearestIdx_spec p0 d n (by omega) ind
  set j := nearestIdx (uniformPeaks p0 d n) ind with hjdef
  have hpk := uniform_get p0 d n points (by omega)
  have hdz : (0 : ℤ) < d := by exact_mod_cast hd
  by_cases hlt : (ind : ℤ) < p0 + points * d
  · have hltn : ind < p0 + points * d := by exact_mod_cast hlt
    have hj1 : j + 1 < n := by
      by_contra hc
      have hjn : j = n - 1 := by omega
      have h1 := hmin points (by omega)
      have h2 : (points : ℤ) + 1 ≤ j := by omega
      have h3 : (p0 : ℤ) + points * d < p0 + j * d := by nlinarith
      rw [abs_of_pos (by linarith), abs_of_pos (by linarith)] at h1
      linarith
    have hmd : ind / d + points ≤ n := by
      have : ind / d < points + 1 := by
        rw [Nat.div_lt_iff_lt_mul hd, Nat.succ_mul]
        omega
      omega
    refine ⟨ind / d, hmd, fun _ => rfl, ?_⟩
    have e : angleWindow points (uniformPeaks p0 d n) ind =
        splinePoints points (slice (uniformPeaks p0 d n) (ind / d) (ind / d + points)) := by
      unfold angleWindow
      rw [hpk]
      simp only
      rw [← hjdef, if_pos hlt, uniform_get _ _ _ _ hj1, uniform_get _ _ _ _ hj]
      simp only
      have hdiff : ((p0 : ℤ) + ((j + 1 : ℕ) : ℤ) * d - (p0 + j * d)) = d := by push_cast; ring
      rw [hdiff]
      have : ((ind : ℤ) / (d : ℤ)).toNat = ind / d := by
        rw [← Int.natCast_div, Int.toNat_natCast]
      rw [this]
    rw [e, uniform_slice _ _ _ _ _ hmd]
  · have hge : p0 + points * d ≤ ind := by
      have := not_lt.1 hlt
      exact_mod_cast this
    have hj0 : 0 < j := by
      by_contra hc
      have hj0 : j = 0 := by omega
      have h1 := hmin 1 (by omega)
      rw [hj0] at h1
      have hz : (p0 : ℤ) + points * d ≤ ind := by exact_mod_cast hge
      have hpz : (1 : ℤ) ≤ points := by omega
      have h2 : (p0 : ℤ) + 1 * d ≤ ind := by nlinarith
      simp only [Nat.cast_zero, zero_mul, Nat.cast_one] at h1
      rw [abs_of_nonpos (by linarith), abs_of_nonpos (by linarith)] at h1
      linarith
    have hm1 : points ≤ ind / d := by
      rw [Nat.le_div_iff_mul_le hd]
      omega
    have hm2 : ind / d ≤ n := by
      have : ind / d < n + 1 := by rwa [Nat.div_lt_iff_lt_mul hd]
      omega
    refine ⟨ind / d - points, by omega, fun h => absurd h (by omega), ?_⟩
    have e : angleWindow points (uniformPeaks p0 d n) ind =
        splinePoints points (slice (uniformPeaks p0 d n) (ind / d - points) (ind / d)) := by
      unfold angleWindow
      rw [hpk]
      simp only
      rw [← hjdef, if_neg hlt, uniform_get _ _ _ _ hj, uniform_get _ _ _ (j - 1) (by omega)]
      simp only
      have hdiff : ((p0 : ℤ) + (j : ℤ) * d - (p0 + ((j - 1 : ℕ) : ℤ) * d)) = d := by
        rw [Nat.cast_sub hj0]; push_cast; ring
      rw [hdiff]
      have : ((ind : ℤ) / (d : ℤ)).toNat = ind / d := by
        rw [← Int.natCast_div, Int.toNat_natCast]
      rw [this]
    have e2 : ind / d = ind / d - points + points := by omega
    rw [e]
    conv_lhs => rw [e2]
    rw [Nat.add_sub_cancel, uniform_slice _ _ _ _ _ (by omega)]

theorem uniform_increasing (p0 d m points : ℕ) (hd : 0 < d) :
    ((List.range points).map (fun k : ℕ => ((p0 : ℤ) + ((m + k : ℕ) : ℤ) * d, k))).Pairwise (fun p q => p.1 < q.1) := by
  rw [List.pairwise_map]
  refine List.pairwise_lt_range.imp ?_
  intro a b hab
  have h1 : (a : ℤ) < b := by exact_mod_cast hab
  have h2 : (0 : ℤ) < d := by exact_mod_cast hd
  push_cast
  nlinarith

theorem uniform_line (p0 d m points : ℕ) (hd : 0 < d) :
    ∀ p ∈ (List.range points).map (fun k : ℕ => ((p0 : ℤ) + ((m + k : ℕ) : ℤ) * d, k)),
      (p.2 : ℚ) = 1 / (d : ℚ) * (p.1 : ℚ) + (-(p0 : ℚ) / d - m) := by
  intro p hp
  obtain ⟨k, _, rfl⟩ := List.mem_map.1 hp
  have : (d : ℚ) ≠ 0 := by exact_mod_cast hd.ne'
  push_cast
  field_simp
  ring

/-- **C96** (part) For a uniform rotation with one trigger per turn, every sample up to the last trigger and one turn beyond
gets the angle of the rotation: it starts with `start` at the first trigger and increases by `dir` turns per trigger. -/
theorem C96_uniform_partial (spline : List (ℤ × ℕ) → ℤ → ℚ) (hs : ReproducesLines spline) (points : ℕ) (hpt : 4 ≤ points)
    (p0 d n : ℕ) (hp : p0 < d) (hn : 2 * points ≤ n) (dir : ℤ) (start : ℚ) (ind : ℕ) (hind : ind < (n + 1) * d) :
    trackAngle spline points (uniformPeaks p0 d n) 1 dir start ind =
      .ok (Int.fract (start + dir * (((ind : ℚ) - p0) / d))) := by
  have hd : 0 < d := by omega
  obtain ⟨m, _, _, hw⟩ := uniform_window p0 d n points ind hd hp hn hpt hind
  unfold trackAngle
  rw [hw]
  show Except.ok _ = _
  congr 1
  beta_reduce
  rw [hs _ (1 / (d : ℚ)) (-(p0 : ℚ) / d - m) (by simpa using hpt) (uniform_increasing p0 d m points hd) (uniform_line p0 d m points hd)]
  have e : (1 / (d : ℚ) * ((ind : ℤ) : ℚ) + (-(p0 : ℚ) / d - m)) * dir / ((1 : ℕ) : ℚ) + start =
      start + dir * (((ind : ℚ) - p0) / d) - ((dir * m : ℤ) : ℚ) := by
    have : (d : ℚ) ≠ 0 := by exact_mod_cast hd.ne'
    push_cast
    field_simp
    ring
  rw [e, Int.fract_sub_intCast]

/-- With several triggers per turn the angle is wrong: at the second trigger it is that of the first trigger, instead of a
fraction of a turn further. -/
theorem C96_per_revo_violated (spline : List (ℤ × ℕ) → ℤ → ℚ) (hs : ReproducesLines spline) (points : ℕ) (hpt : 4 ≤ points)
    (p0 d n : ℕ) (hp : p0 < d) (hn : 2 * points ≤ n) (perRevo : ℕ) (hr : 2 ≤ perRevo) (start : ℚ) :
    trackAngle spline points (uniformPeaks p0 d n) perRevo 1 start (p0 + d) = .ok (Int.fract start) ∧
      Int.fract start ≠ Int.fract (start + 1 * (((p0 + d : ℕ) : ℚ) - p0) / (d * perRevo)) := by
  have hd : 0 < d := by omega
  have hdq : (d : ℚ) ≠ 0 := by exact_mod_cast hd.ne'
  have hrq : (2 : ℚ) ≤ perRevo := by exact_mod_cast hr
  constructor
  · obtain ⟨m, _, hm, hw⟩ := uniform_window p0 d n points (p0 + d) hd hp hn hpt (by nlinarith)
    have hm1 : m = 1 := by
      rw [hm (by nlinarith), Nat.add_div_right _ hd, Nat.div_eq_of_lt hp]
    unfold trackAngle
    rw [hw]
    show Except.ok _ = _
    congr 1
    beta_reduce
    rw [hs _ (1 / (d : ℚ)) (-(p0 : ℚ) / d - m) (by simpa using hpt) (uniform_increasing p0 d m points hd) (uniform_line p0 d m points hd), hm1]
    congr 1
    push_cast
    field_simp
    ring
  · intro h
    have e : start + 1 * (((p0 + d : ℕ) : ℚ) - p0) / (d * perRevo) = start + 1 / perRevo := by
      push_cast
      field_simp
      ring
    rw [e] at h
    obtain ⟨z, hz⟩ := Int.fract_eq_fract.1 h
    have h1 : (0 : ℚ) < 1 / perRevo := by positivity
    have h2 : (1 : ℚ) / perRevo < 1 := by
      rw [div_lt_one (by linarith)]; linarith
    have h3 : (z : ℚ) < 0 := by linarith
    have h4 : (-1 : ℚ) < z := by linarith
    have h5 : z < 0 := by exact_mod_cast h3
    have h6 : -1 < z := by exact_mod_cast h4
    omega

/-- Too few triggers: with at most `points` (default 4) of them every sample raises. -/
theorem C96_few_violated (spline : List (ℤ × ℕ) → ℤ → ℚ) (points : ℕ) (peaks : List ℤ) (h : peaks.length ≤ points)
    (perRevo : ℕ) (dir : ℤ) (start : ℚ) (ind : ℕ) :
    trackAngle spline points peaks perRevo dir start ind = .error .indexError := by
  unfold trackAngle angleWindow
  rw [List.getElem?_eq_none h]
  rfl

/-- Samples more than one turn after the last trigger raise, too. -/
theorem C96_end_violated (spline : List (ℤ × ℕ) → ℤ → ℚ) :
    trackAngle spline 4 (uniformPeaks 0 10 8) 1 1 0 90 = .error .valueError := by
  have : angleWindow 4 (uniformPeaks 0 10 8) 90 = .error .valueError := by decide +kernel
  unfold trackAngle
  rw [this]
  rfl

/-! ## C97: speed -/

/-- **C97** (part) For a uniform rotation the average speed is `60 fs / (d perRevo)` turns per minute. -/
theorem C97_average (p0 d n perRevo : ℕ) (hd : 0 < d) (hn : 2 ≤ n) (fs : ℚ) :
    averageRpm (uniformPeaks p0 d n) perRevo fs = .ok (60 * fs / (d * perRevo)) := by
  have h0 : (uniformPeaks p0 d n).head? = some (p0 : ℤ) := by
    rw [List.head?_eq_getElem?, uniform_get _ _ _ _ (by omega)]
    simp
  have h1 : (uniformPeaks p0 d n).getLast? = some ((p0 : ℤ) + ((n - 1 : ℕ) : ℤ) * d) := by
    rw [List.getLast?_eq_getElem?]
    have hl : (uniformPeaks p0 d n).length = n := by simp [uniformPeaks]
    rw [hl, uniform_get _ _ _ _ (by omega)]
  have hl : (uniformPeaks p0 d n).length = n := by simp [uniformPeaks]
  unfold averageRpm
  rw [h0, h1, hl]
  simp only
  congr 1
  have hdq : (d : ℚ) ≠ 0 := by exact_mod_cast hd.ne'
  have hnq : ((n : ℚ) - 1) ≠ 0 := by
    have : (2 : ℚ) ≤ n := by exact_mod_cast hn
    intro h; linarith
  rw [Nat.cast_sub (by omega)]
  push_cast
  by_cases hr : (perRevo : ℚ) = 0
  · rw [hr]; simp
  · have : ((p0 : ℚ) + (n - 1) * d - p0) = (n - 1) * d := by ring
    rw [this]
    field_simp

/-- The speed at every sample is the average speed times the number of triggers per turn. So the two agree for one trigger
per turn … -/
theorem C97_rpm_partial (slope : List (ℤ × ℕ) → ℤ → ℚ) (hs : ReproducesSlopes slope) (points : ℕ) (hpt : 4 ≤ points)
    (p0 d n perRevo : ℕ) (hr : 0 < perRevo) (hp : p0 < d) (hn : 2 * points ≤ n) (fs : ℚ) (ind : ℕ) (hind : ind < (n + 1) * d) :
    ∃ avg, averageRpm (uniformPeaks p0 d n) perRevo fs = .ok avg ∧
      trackRpm slope points (uniformPeaks p0 d n) fs ind = .ok (perRevo * avg) := by
  have hd : 0 < d := by omega
  refine ⟨_, C97_average p0 d n perRevo hd (by omega) fs, ?_⟩
  obtain ⟨m, _, _, hw⟩ := uniform_window p0 d n points ind hd hp hn hpt hind
  unfold trackRpm
  rw [hw]
  show Except.ok _ = _
  congr 1
  beta_reduce
  rw [hs _ (1 / (d : ℚ)) (-(p0 : ℚ) / d - m) (by simpa using hpt) (uniform_increasing p0 d m points hd) (uniform_line p0 d m points hd)]
  have hdq : (d : ℚ) ≠ 0 := by exact_mod_cast hd.ne'
  have hrq : (perRevo : ℚ) ≠ 0 := by exact_mod_cast hr.ne'
  field_simp

/-- … and differ for more. -/
theorem C97_rpm_violated (slope : List (ℤ × ℕ) → ℤ → ℚ) (hs : ReproducesSlopes slope) (points : ℕ) (hpt : 4 ≤ points)
    (p0 d n perRevo : ℕ) (hr : 2 ≤ perRevo) (hp : p0 < d) (hn : 2 * points ≤ n) (fs : ℚ) (hfs : 0 < fs) (ind : ℕ)
    (hind : ind < (n + 1) * d) :
    trackRpm slope points (uniformPeaks p0 d n) fs ind ≠ averageRpm (uniformPeaks p0 d n) perRevo fs := by
  obtain ⟨avg, h1, h2⟩ := C97_rpm_partial slope hs points hpt p0 d n perRevo (by omega) hp hn fs ind hind
  rw [h1, h2]
  intro h
  have h3 : (perRevo : ℚ) * avg = avg := Except.ok.inj h
  rw [C97_average p0 d n perRevo (by omega) (by omega)] at h1
  have h4 : 60 * fs / ((d : ℚ) * perRevo) = avg := Except.ok.inj h1
  have hdq : (0 : ℚ) < d := by
    have : 0 < d := by omega
    exact_mod_cast this
  have hrq : (2 : ℚ) ≤ perRevo := by exact_mod_cast hr
  have h5 : 0 < avg := by rw [← h4]; positivity
  nlinarith

/-- The line through the first two points. -/
def twoPointLine (pts : List (ℤ × ℕ)) : ℚ × ℚ := match pts with
  | p :: q :: _ => (((q.2 : ℚ) - p.2) / (q.1 - p.1), (p.2 : ℚ) - ((q.2 : ℚ) - p.2) / (q.1 - p.1) * p.1)
  | _ => (0, 0)

theorem twoPointLine_spec (pts : List (ℤ × ℕ)) (a b : ℚ) (hl : 4 ≤ pts.length) (hp : pts.Pairwise (fun p q => p.1 < q.1))
    (h : ∀ p ∈ pts, (p.2 : ℚ) = a * p.1 + b) : twoPointLine pts = (a, b) := by
  match pts, hl, hp, h with
  | p :: q :: r, _, hp, h =>
    have h1 := h p (by simp)
    have h2 := h q (by simp)
    have h3 : p.1 < q.1 := (List.pairwise_cons.1 hp).1 q (by simp)
    have h4 : ((q.1 : ℚ) - p.1) ≠ 0 := by
      have : (p.1 : ℚ) < q.1 := by exact_mod_cast h3
      intro h; linarith
    have h5 : ((q.2 : ℚ) - p.2) / (q.1 - p.1) = a := by
      rw [div_eq_iff h4, h1, h2]; ring
    unfold twoPointLine
    simp only [h5]
    rw [h1]
    congr 1
    ring

/-- The hypotheses can be met: the line through the first two points is a spline of this kind. -/
example : ReproducesLines (fun pts x => (twoPointLine pts).1 * x + (twoPointLine pts).2) ∧
    ReproducesSlopes (fun pts _ => (twoPointLine pts).1) := by
  constructor
  · intro pts a b hl hp h x
    simp only [twoPointLine_spec pts a b hl hp h]
  · intro pts a b hl hp h x
    simp only [twoPointLine_spec pts a b hl hp h]

/-- 8 triggers, 10 samples apart: sample 25 has turned two and a half times. -/
example : trackAngle (fun pts x => (twoPointLine pts).1 * x + (twoPointLine pts).2) 4 (uniformPeaks 0 10 8) 1 (-1) 0 25 =
    .ok (1 / 2) := by
  decide +kernel

/-- The hypotheses of `C96_uniform_partial` are met: -/
example := C96_uniform_partial (fun pts x => (twoPointLine pts).1 * x + (twoPointLine pts).2)
  (fun pts a b hl hp h x => by simp only [twoPointLine_spec pts a b hl hp h]) 4 (by decide) 3 10 8 (by decide) (by decide) (-1) (1 / 4) 25
  (by decide)

/-- The hypotheses of `C97_average` are met: -/
example := C97_average 3 10 8 2 (by decide) (by decide) 1000

/-- The hypotheses of `C97_rpm_partial` are met: -/
example := C97_rpm_partial (fun pts _ => (twoPointLine pts).1)
  (fun pts a b hl hp h x => by simp only [twoPointLine_spec pts a b hl hp h]) 4 (by decide) 3 10 8 2 (by decide) (by decide) (by decide)
  1000 25 (by decide)

end Acoular
