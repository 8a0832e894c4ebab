import Verif.Model.Grid
import Verif.Spec.Grid
import Mathlib.Tactic.Linarith
import Mathlib.Tactic.Ring
import Mathlib.Tactic.FieldSimp
import Mathlib.Tactic.Positivity
import Mathlib.Tactic.NormNum
import Mathlib.Tactic.FinCases
import Mathlib.Data.Fin.VecNotation

/-!
# Property theorems: grids (C31), sectors (C32), integration (C33), cached positions (C67), repeated integration (C68)
-/

set_option linter.unusedSectionVars false

namespace Acoular

open Spec

/-- The grid of the instances below: 21 by 11 points. -/
private def gridEx : RectGrid ℚ := ⟨-1, 1, 0, 1, 2, 1 / 10⟩

private theorem gridEx_inc : 0 < gridEx.inc := by norm_num [gridEx]

private theorem gridEx_x : gridEx.xMax = gridEx.xMin + (20 : ℕ) * gridEx.inc := by norm_num [gridEx]

private theorem gridEx_y : gridEx.yMax = gridEx.yMin + (10 : ℕ) * gridEx.inc := by norm_num [gridEx]

section C31

variable {K : Type*} [Field K] [LinearOrder K] [IsStrictOrderedRing K] [FloorRing K]

/-- `round` gives a nearest integer. -/
theorem pyRound_near (q : K) : |q - (pyRound q : K)| ≤ 1 / 2 := by
  have h1 := Int.floor_le q
  have h2 := Int.lt_floor_add_one q
  unfold pyRound
  simp only
  rw [abs_le]
  split
  · constructor <;> linarith
  · split
    · push_cast; constructor <;> linarith
    · split
      · constructor <;> linarith
      · push_cast; constructor <;> linarith

theorem pyRound_int (n : ℤ) : pyRound (n : K) = n := by
  have : (⌊(n : K)⌋ : ℤ) = n := Int.floor_intCast n
  unfold pyRound
  simp only [this, sub_self]
  rw [if_pos (by norm_num)]

/-- `int(q + 0.5)` gives a nearest integer for non-negative `q`. -/
theorem pyInt_near (q : K) (hq : 0 ≤ q) : |q - (pyInt (q + 1 / 2) : K)| ≤ 1 / 2 := by
  have h1 := Int.floor_le (q + 1 / 2)
  have h2 := Int.lt_floor_add_one (q + 1 / 2)
  unfold pyInt
  rw [if_pos (by linarith), abs_le]
  constructor <;> linarith

/-- A nearest integer of a number in `0..n` is in `0..n`, and no other integer is nearer. -/
theorem near_int {q : K} {i : ℤ} (h : |q - (i : K)| ≤ 1 / 2) {n : ℕ} (h0 : 0 ≤ q) (hn : q ≤ n) :
    ∃ m : ℕ, i = m ∧ m ≤ n ∧ ∀ k : ℤ, |q - (i : K)| ≤ |q - k| := by
  obtain ⟨ha, hb⟩ := abs_le.1 h
  have hi0 : 0 ≤ i := by
    by_contra hc
    have h1 : (i : K) ≤ -1 := by exact_mod_cast (by omega : i ≤ -1)
    linarith
  have hin : i ≤ n := by
    by_contra hc
    have h1 : ((n : ℤ) : K) + 1 ≤ i := by exact_mod_cast (by omega : (n : ℤ) + 1 ≤ i)
    push_cast at h1
    linarith
  refine ⟨i.toNat, by omega, by omega, fun k => ?_⟩
  rcases eq_or_ne k i with rfl | hk
  · exact le_refl _
  · have h1 : (1 : K) ≤ |(k : K) - i| := by
      have : (1 : ℤ) ≤ |k - i| := Int.one_le_abs (sub_ne_zero.2 hk)
      exact_mod_cast this
    have h2 : |(k : K) - i| ≤ |q - k| + |q - i| := by
      have := abs_sub_le (k : K) q i
      rwa [abs_sub_comm (k : K) q] at this
    linarith

/-- Along one axis: the number of points and the points. -/
theorem axis_points {lo hi inc : K} {n : ℕ} (hinc : 0 < inc) (h : hi = lo + n * inc) :
    (nSteps lo hi inc).toNat = n + 1 ∧ ∀ k ≤ n, mgridPoint lo hi (n + 1) k = lo + k * inc := by
  have hn : (0 : K) ≤ n := Nat.cast_nonneg n
  constructor
  · unfold nSteps
    simp only [abs_of_pos hinc]
    rw [if_pos hinc.ne']
    have : (|hi - lo| + inc) / inc = (((n + 1 : ℕ) : ℤ) : K) := by
      rw [h, add_sub_cancel_left, abs_of_nonneg (by positivity)]
      push_cast
      field_simp
    rw [this, pyRound_int]
    rfl
  · intro k hk
    unfold mgridPoint
    split
    · have : k = 0 := by omega
      subst this; simp
    · have : (n : K) ≠ 0 := by
        have : n ≠ 0 := by omega
        exact_mod_cast this
      rw [h]
      push_cast
      rw [add_sub_cancel_left, add_sub_cancel_right, mul_div_cancel_left₀ _ this, add_comm]

/-- Position `i*b + j` of a two-dimensional listing. -/
theorem flatMap_range_getElem? {β : Type*} (f : ℕ → ℕ → β) (a b i j : ℕ) (hi : i < a) (hj : j < b) :
    ((List.range a).flatMap fun i => (List.range b).map (f i))[i * b + j]? = some (f i j) := by
  induction a with
  | zero => omega
  | succ a ih =>
    rw [List.range_succ, List.flatMap_append]
    have hlen : ((List.range a).flatMap fun i => (List.range b).map (f i)).length = a * b := by
      simp [List.length_flatMap]
    by_cases h : i < a
    · rw [List.getElem?_append_left]
      · exact ih h
      · rw [hlen]
        calc i * b + j < i * b + b := by omega
          _ = (i + 1) * b := by ring
          _ ≤ a * b := Nat.mul_le_mul_right b h
    · have : i = a := by omega
      subst this
      rw [List.getElem?_append_right (by rw [hlen]; omega), hlen]
      simp [List.getElem?_map, List.getElem?_range hj]

/-- The number of positions is `size`, for every grid. -/
theorem C31_size (g : RectGrid K) : g.pos.length = g.size := by
  unfold RectGrid.pos RectGrid.size
  simp [List.length_flatMap]

/-- The grid covers its extent with the given increment: `(a+1) × (b+1)` points, the point with indices `i`, `j`
is position number `i*(b+1) + j` and has the coordinates expected. -/
theorem C31_positions (g : RectGrid K) {a b : ℕ} (hinc : 0 < g.inc) (hx : g.xMax = g.xMin + a * g.inc)
    (hy : g.yMax = g.yMin + b * g.inc) :
    g.nx = a + 1 ∧ g.ny = b + 1 ∧ g.size = (a + 1) * (b + 1) ∧
      ∀ i ≤ a, ∀ j ≤ b, g.pos[i * g.ny + j]? = some (g.xMin + i * g.inc, g.yMin + j * g.inc, g.z) := by
  obtain ⟨hnx, hpx⟩ := axis_points hinc hx
  obtain ⟨hny, hpy⟩ := axis_points hinc hy
  have h1 : g.nx = a + 1 := hnx
  have h2 : g.ny = b + 1 := hny
  refine ⟨h1, h2, by rw [RectGrid.size, h1, h2], fun i hi j hj => ?_⟩
  unfold RectGrid.pos
  rw [h1, h2]
  rw [flatMap_range_getElem? _ _ _ _ _ (by omega) (by omega), hpx i hi, hpy j hj]

/-- The hypotheses of `C31_positions` are met: -/
example := C31_positions (a := 20) (b := 10) gridEx gridEx_inc gridEx_x gridEx_y

/-- `index` returns the indices of a nearest grid point for every point inside the grid. -/
theorem C31_nearest (g : RectGrid K) {a b : ℕ} (hinc : 0 < g.inc) (hx : g.xMax = g.xMin + a * g.inc)
    (hy : g.yMax = g.yMin + b * g.inc) (x y : K) (hx0 : g.xMin ≤ x) (hx1 : x ≤ g.xMax) (hy0 : g.yMin ≤ y)
    (hy1 : y ≤ g.yMax) :
    ∃ (i j : ℕ) (p : K × K × K), g.index x y = .ok (i, j) ∧ i < g.nx ∧ j < g.ny ∧ g.pos[i * g.ny + j]? = some p ∧
      ∀ q ∈ g.pos, dist2 x y p.1 p.2.1 ≤ dist2 x y q.1 q.2.1 := by
  obtain ⟨hnx, hny, -, hpos⟩ := C31_positions g hinc hx hy
  have hqx0 : 0 ≤ (x - g.xMin) / g.inc := div_nonneg (by linarith) hinc.le
  have hqx1 : (x - g.xMin) / g.inc ≤ a := by rw [div_le_iff₀ hinc]; linarith
  have hqy0 : 0 ≤ (y - g.yMin) / g.inc := div_nonneg (by linarith) hinc.le
  have hqy1 : (y - g.yMin) / g.inc ≤ b := by rw [div_le_iff₀ hinc]; linarith
  obtain ⟨i, hi, hia, hin⟩ := near_int (pyInt_near _ hqx0) hqx0 hqx1
  obtain ⟨j, hj, hjb, hjn⟩ := near_int (pyInt_near _ hqy0) hqy0 hqy1
  refine ⟨i, j, _, ?_, by omega, by omega, hpos i hia j hjb, ?_⟩
  · unfold RectGrid.index
    rw [if_neg (by push Not; exact ⟨hx0, hx1⟩), if_neg (by push Not; exact ⟨hy0, hy1⟩), if_neg hinc.ne', hi, hj]
  · intro q hq
    unfold RectGrid.pos at hq
    rw [List.mem_flatMap] at hq
    obtain ⟨k, hk, hq⟩ := hq
    rw [List.mem_map] at hq
    obtain ⟨l, hl, rfl⟩ := hq
    rw [List.mem_range] at hk hl
    obtain ⟨_, hpx⟩ := axis_points hinc hx
    obtain ⟨_, hpy⟩ := axis_points hinc hy
    simp only
    rw [hnx, hny, hpx k (by omega), hpy l (by omega)]
    unfold dist2
    have key : ∀ (t lo : K) (m k : ℕ), (∀ c : ℤ, |(t - lo) / g.inc - (m : K)| ≤ |(t - lo) / g.inc - c|) →
        (t - (lo + m * g.inc)) ^ 2 ≤ (t - (lo + k * g.inc)) ^ 2 := by
      intro t lo m k h
      have := sq_le_sq.2 (h k)
      have e : ∀ c : ℕ, (t - (lo + c * g.inc)) ^ 2 = ((t - lo) / g.inc - c) ^ 2 * g.inc ^ 2 := by
        intro c; field_simp; ring
      rw [e, e]
      push_cast at this
      exact mul_le_mul_of_nonneg_right this (by positivity)
    refine add_le_add (key x g.xMin i k ?_) (key y g.yMin j l ?_)
    · rw [hi] at hin; exact_mod_cast hin
    · rw [hj] at hjn; exact_mod_cast hjn

/-- The hypotheses of `C31_nearest` are met: -/
example := C31_nearest (a := 20) (b := 10) gridEx gridEx_inc gridEx_x gridEx_y (3 / 100) (1 / 3) (by norm_num [gridEx]) (by norm_num [gridEx])
  (by norm_num [gridEx]) (by norm_num [gridEx])

/-- Position and index are inverse to each other. -/
theorem C31_index_of_position (g : RectGrid K) {a b : ℕ} (hinc : 0 < g.inc) (hx : g.xMax = g.xMin + a * g.inc)
    (hy : g.yMax = g.yMin + b * g.inc) (i j : ℕ) (hi : i < g.nx) (hj : j < g.ny) :
    ∃ p, g.pos[i * g.ny + j]? = some p ∧ g.index p.1 p.2.1 = .ok (i, j) := by
  obtain ⟨hnx, hny, -, hpos⟩ := C31_positions g hinc hx hy
  refine ⟨_, hpos i (by omega) j (by omega), ?_⟩
  have hcast : ∀ {m n : ℕ}, m ≤ n → (m : K) * g.inc ≤ n * g.inc := fun h =>
    mul_le_mul_of_nonneg_right (by exact_mod_cast h) hinc.le
  have h0 : ∀ m : ℕ, (0 : K) ≤ m * g.inc := fun m => mul_nonneg (Nat.cast_nonneg m) hinc.le
  have e : ∀ (lo : K) (m : ℕ), pyInt ((lo + m * g.inc - lo) / g.inc + 1 / 2) = m := by
    intro lo m
    rw [add_sub_cancel_left, mul_div_assoc, div_self hinc.ne', mul_one]
    unfold pyInt
    rw [if_pos (by positivity), Int.floor_eq_iff]
    push_cast
    constructor <;> linarith
  unfold RectGrid.index
  simp only
  rw [if_neg, if_neg, if_neg hinc.ne', e, e]
  · rw [hy]; push Not; exact ⟨by linarith [h0 j], by linarith [hcast (show j ≤ b by omega)]⟩
  · rw [hx]; push Not; exact ⟨by linarith [h0 i], by linarith [hcast (show i ≤ a by omega)]⟩

/-- The hypotheses of `C31_index_of_position` are met: -/
example := C31_index_of_position (a := 20) (b := 10) gridEx gridEx_inc gridEx_x gridEx_y 3 7 (by decide +kernel) (by decide +kernel)

/-- Points outside the extent are rejected, for every grid. -/
theorem C31_outside (g : RectGrid K) (x y : K) (h : x < g.xMin ∨ g.xMax < x ∨ y < g.yMin ∨ g.yMax < y) :
    g.index x y = .error .valueError := by
  unfold RectGrid.index
  split
  · rfl
  · split
    · rfl
    · exfalso; rename_i h1 h2; tauto

example : ∃ g : RectGrid ℚ, 0 < g.inc ∧ g.xMax = g.xMin + (20 : ℕ) * g.inc ∧ g.yMax = g.yMin + (10 : ℕ) * g.inc ∧
    g.xMin ≤ 3 / 100 ∧ 3 / 100 ≤ g.xMax :=
  ⟨⟨-1, 1, 0, 1, 2, 1 / 10⟩, by norm_num, by norm_num, by norm_num, by norm_num, by norm_num⟩

/-- If the extent is not a multiple of the increment, `index` of a point inside the grid may not be the index of a
grid point at all: extent 0..1.5, increment 1 (two points along the axis, index 2). -/
theorem C31_index_beyond_grid_violated :
    ∃ (g : RectGrid ℚ) (x y : ℚ), 0 < g.inc ∧ g.xMin ≤ x ∧ x ≤ g.xMax ∧ g.yMin ≤ y ∧ y ≤ g.yMax ∧
      g.index x y = .ok (2, 0) ∧ g.nx = 2 := by
  refine ⟨⟨0, 3 / 2, 0, 1, 0, 1⟩, 3 / 2, 0, ?_⟩
  decide +kernel

/-- ... or not that of the nearest one: extent 0..1.3, increment 1, points 0 and 1.3; 0.6 is given index 1. -/
theorem C31_not_nearest_violated :
    ∃ (g : RectGrid ℚ) (x : ℚ) (p q : ℚ × ℚ × ℚ), 0 < g.inc ∧ g.xMin ≤ x ∧ x ≤ g.xMax ∧ g.index x 0 = .ok (1, 0) ∧
      g.pos[1 * g.ny + 0]? = some p ∧ q ∈ g.pos ∧ dist2 x 0 q.1 q.2.1 < dist2 x 0 p.1 p.2.1 := by
  refine ⟨⟨0, 13 / 10, 0, 1, 0, 1⟩, 6 / 10, (13 / 10, 0, 0), (0, 0, 0), ?_⟩
  decide +kernel

/-- `RectGrid3D`: number and listing of the points. -/
theorem C31_positions_3d (g : RectGrid3D K) {m : Fin 3 → ℕ} (hinc : ∀ a, 0 < g.inc a)
    (h : ∀ a, g.hi a = g.lo a + m a * g.inc a) :
    (∀ a, g.n a = m a + 1) ∧ g.pos.length = g.size ∧ ∀ i ≤ m 0, ∀ j ≤ m 1, ∀ k ≤ m 2,
      g.pos[(i * g.n 1 + j) * g.n 2 + k]? =
        some (g.lo 0 + i * g.inc 0, g.lo 1 + j * g.inc 1, g.lo 2 + k * g.inc 2) := by
  have hn : ∀ a, g.n a = m a + 1 := fun a => (axis_points (hinc a) (h a)).1
  have hp : ∀ a, ∀ k ≤ m a, mgridPoint (g.lo a) (g.hi a) (m a + 1) k = g.lo a + k * g.inc a := fun a =>
    (axis_points (hinc a) (h a)).2
  refine ⟨hn, ?_, fun i hi j hj k hk => ?_⟩
  · unfold RectGrid3D.pos RectGrid3D.size
    simp [List.length_flatMap, Nat.mul_assoc]
  · unfold RectGrid3D.pos
    rw [hn, hn, hn]
    have e := flatMap_range_getElem? (fun ij k => (mgridPoint (g.lo 0) (g.hi 0) (m 0 + 1) (ij / (m 1 + 1)),
      mgridPoint (g.lo 1) (g.hi 1) (m 1 + 1) (ij % (m 1 + 1)), mgridPoint (g.lo 2) (g.hi 2) (m 2 + 1) k))
      ((m 0 + 1) * (m 1 + 1)) (m 2 + 1) (i * (m 1 + 1) + j) k
      (by calc i * (m 1 + 1) + j < i * (m 1 + 1) + (m 1 + 1) := by omega
            _ = (i + 1) * (m 1 + 1) := by ring
            _ ≤ _ := Nat.mul_le_mul_right _ (by omega)) (by omega)
    have hd : (i * (m 1 + 1) + j) / (m 1 + 1) = i := by
      rw [Nat.mul_comm, Nat.mul_add_div (by omega), Nat.div_eq_of_lt (by omega), Nat.add_zero]
    have hm : (i * (m 1 + 1) + j) % (m 1 + 1) = j := by
      rw [Nat.mul_comm, Nat.mul_add_mod, Nat.mod_eq_of_lt (by omega)]
    simp only [hd, hm] at e
    rw [hp 0 i hi, hp 1 j hj, hp 2 k hk] at e
    rw [← e]
    congr 1
    -- the doubly nested listing is the listing over the combined index
    have flat : ∀ (n : ℕ) (F : ℕ → ℕ → List (K × K × K)), ((List.range n).flatMap fun i => (List.range (m 1 + 1)).flatMap (F i)) =
        (List.range (n * (m 1 + 1))).flatMap fun ij => F (ij / (m 1 + 1)) (ij % (m 1 + 1)) := by
      intro n F
      induction n with
      | zero => simp
      | succ n ih =>
        rw [List.range_succ (n := n), List.flatMap_append, ih, Nat.succ_mul, List.range_add (n := n * (m 1 + 1)), List.flatMap_append]
        congr 1
        simp only [List.flatMap_cons, List.flatMap_nil, List.append_nil, List.flatMap_map]
        apply List.flatMap_congr
        intro j hj
        rw [List.mem_range] at hj
        have hd : (n * (m 1 + 1) + j) / (m 1 + 1) = n := by
          rw [Nat.mul_comm, Nat.mul_add_div (by omega), Nat.div_eq_of_lt (by omega), Nat.add_zero]
        have hm : (n * (m 1 + 1) + j) % (m 1 + 1) = j := by
          rw [Nat.mul_comm, Nat.mul_add_mod, Nat.mod_eq_of_lt (by omega)]
        simp only [hd, hm]
    rw [flat]

/-- The hypotheses of `C31_positions_3d` are met: -/
example := C31_positions_3d (m := ![2, 4, 5]) ⟨fun _ => (-1 : ℚ), fun _ => 1, ![1, 1 / 2, 2 / 5]⟩ (by intro a; fin_cases a <;> norm_num)
  (by intro a; fin_cases a <;> norm_num)

/-- `RectGrid3D.index`: the grid point returned is the nearest along every axis. -/
theorem C31_nearest_3d (g : RectGrid3D K) {m : Fin 3 → ℕ} (hinc : ∀ a, 0 < g.inc a)
    (h : ∀ a, g.hi a = g.lo a + m a * g.inc a) (x : Fin 3 → K) (h0 : ∀ a, g.lo a ≤ x a) (h1 : ∀ a, x a ≤ g.hi a) :
    ∃ i : Fin 3 → ℕ, g.index x = .ok (i 0, i 1, i 2) ∧ (∀ a, i a < g.n a) ∧
      ∀ a, ∀ k : ℕ, |x a - (g.lo a + i a * g.inc a)| ≤ |x a - (g.lo a + k * g.inc a)| := by
  obtain ⟨hn, -, -⟩ := C31_positions_3d g hinc h
  have hq0 : ∀ a, 0 ≤ (x a - g.lo a) / g.inc a := fun a => div_nonneg (by linarith [h0 a]) (hinc a).le
  have hq1 : ∀ a, (x a - g.lo a) / g.inc a ≤ m a := fun a => by
    rw [div_le_iff₀ (hinc a)]; linarith [h1 a, h a]
  choose i hi him hmin using fun a => near_int (pyRound_near ((x a - g.lo a) / g.inc a)) (hq0 a) (hq1 a)
  refine ⟨i, ?_, fun a => by rw [hn]; have := him a; omega, fun a k => ?_⟩
  · unfold RectGrid3D.index
    rw [if_neg, if_neg, if_neg, if_neg, hi, hi, hi]
    · push Not; exact ⟨(hinc 0).ne', (hinc 1).ne', (hinc 2).ne'⟩
    · push Not; exact ⟨h0 2, h1 2⟩
    · push Not; exact ⟨h0 1, h1 1⟩
    · push Not; exact ⟨h0 0, h1 0⟩
  · have e : ∀ c : ℕ, |x a - (g.lo a + c * g.inc a)| = |(x a - g.lo a) / g.inc a - c| * g.inc a := by
      intro c
      rw [← abs_of_pos (hinc a), ← abs_mul, abs_of_pos (hinc a)]
      congr 1
      have := (hinc a).ne'
      field_simp
      ring
    rw [e, e]
    apply mul_le_mul_of_nonneg_right _ (hinc a).le
    have := hmin a k
    rw [hi a] at this
    exact_mod_cast this

/-- The hypotheses of `C31_nearest_3d` are met: -/
example := C31_nearest_3d (m := ![2, 4, 5]) ⟨fun _ => (-1 : ℚ), fun _ => 1, ![1, 1 / 2, 2 / 5]⟩ (by intro a; fin_cases a <;> norm_num)
  (by intro a; fin_cases a <;> norm_num) (fun _ => 1 / 3) (by norm_num) (by norm_num)

/-- Outside points are rejected by `RectGrid3D.index`. -/
theorem C31_outside_3d (g : RectGrid3D K) (x : Fin 3 → K) (a : Fin 3) (h : x a < g.lo a ∨ g.hi a < x a) :
    g.index x = .error .valueError := by
  unfold RectGrid3D.index
  split
  · rfl
  · split
    · rfl
    · split
      · rfl
      · exfalso; rename_i h1 h2 h3
        fin_cases a <;> simp at h <;> tauto

example : ∃ g : RectGrid3D ℚ, (∀ a, 0 < g.inc a) ∧ ∀ a, g.hi a = g.lo a + ((![2, 4, 5] : Fin 3 → ℕ) a : ℚ) * g.inc a :=
  ⟨⟨fun _ => -1, fun _ => 1, ![1, 1 / 2, 2 / 5]⟩, by intro a; fin_cases a <;> norm_num, by intro a; fin_cases a <;> norm_num⟩

end C31

/-! ## C67 -/

section C67
variable {K : Type*} [Field K] [LinearOrder K] [FloorRing K]

/-- The action does not assign `z`. -/
def GridAct.keepsZ : GridAct K → Bool
  | .setZ _ => false
  | _ => true

/-- If `z` is not assigned after the first access, `pos` always shows the positions for the current
settings. -/
theorem C67_pos_current_partial (g : RectGrid K) (acts : List (GridAct K)) (h : ∀ a ∈ acts, a.keepsZ) :
    (acts.foldl gridAct ⟨g, none⟩).posNow = (acts.foldl gridAct ⟨g, none⟩).g.pos := by
  have inv : ∀ (acts : List (GridAct K)) (o : GridObj K), (∀ a ∈ acts, a.keepsZ) →
      (∀ c, o.cache = some c → c = o.g.pos) →
      ∀ c, (acts.foldl gridAct o).cache = some c → c = (acts.foldl gridAct o).g.pos := by
    intro acts
    induction acts with
    | nil => intro o _ h; simpa using h
    | cons a acts ih =>
      intro o hz ho
      rw [List.foldl_cons]
      apply ih _ (fun b hb => hz b (List.mem_cons_of_mem _ hb))
      have ha := hz a List.mem_cons_self
      intro c
      cases a with
      | setZ v => simp [GridAct.keepsZ] at ha
      | readPos =>
        simp only [gridAct]
        cases hc : o.cache with
        | none => intro h; simpa using h.symm
        | some d => intro h; rw [Option.getD_some, Option.some.injEq] at h; exact h ▸ ho d hc
      | setXMin v => simp only [gridAct]; split <;> intro h <;> [skip; cases h]; rename_i e; subst e; exact ho c h
      | setXMax v => simp only [gridAct]; split <;> intro h <;> [skip; cases h]; rename_i e; subst e; exact ho c h
      | setYMin v => simp only [gridAct]; split <;> intro h <;> [skip; cases h]; rename_i e; subst e; exact ho c h
      | setYMax v => simp only [gridAct]; split <;> intro h <;> [skip; cases h]; rename_i e; subst e; exact ho c h
      | setInc v => simp only [gridAct]; split <;> intro h <;> [skip; cases h]; rename_i e; subst e; exact ho c h
  have := inv acts ⟨g, none⟩ h (by intro c hc; cases hc)
  unfold GridObj.posNow
  cases hc : (acts.foldl gridAct ⟨g, none⟩).cache with
  | none => rfl
  | some c => exact this c hc

/-- The hypotheses of `C67_pos_current_partial` are met: -/
example := C67_pos_current_partial gridEx [.readPos, .setInc 2, .setXMin 3, .readPos] (by decide)

/-- Assigning `z` after `pos` has been read leaves the positions in the old plane. -/
theorem C67_stale_z_violated :
    ∃ (g : RectGrid ℚ) (acts : List (GridAct ℚ)),
      (acts.foldl gridAct ⟨g, none⟩).posNow ≠ (acts.foldl gridAct ⟨g, none⟩).g.pos := by
  refine ⟨⟨0, 0, 0, 0, 1, 1⟩, [.readPos, .setZ 2], ?_⟩
  decide +kernel

example : ∀ a ∈ ([.readPos, .setInc 2, .setXMin 3, .readPos] : List (GridAct ℚ)), a.keepsZ := by decide

end C67

/-! ## C32 -/

section C32
variable {K : Type*} [Field K] [LinearOrder K] [IsStrictOrderedRing K]

private theorem argminList_spec : ∀ l : List K, l ≠ [] → ∃ a, l[argminList l]? = some a ∧ ∀ b ∈ l, a ≤ b
  | [], h => absurd rfl h
  | [a], _ => ⟨a, rfl, by simp⟩
  | a :: b :: l, _ => by
    obtain ⟨c, hc, hmin⟩ := argminList_spec (b :: l) (by simp)
    unfold argminList
    simp only
    have hd : (b :: l).getD (argminList (b :: l)) a = c := by
      rw [List.getD_eq_getElem?_getD, hc]; rfl
    rw [hd]
    split
    · rename_i h
      refine ⟨a, rfl, fun x hx => ?_⟩
      rcases List.mem_cons.1 hx with rfl | hx
      · exact le_refl _
      · exact h.trans (hmin x hx)
    · rename_i h
      refine ⟨c, by simpa using hc, fun x hx => ?_⟩
      rcases List.mem_cons.1 hx with rfl | hx
      · exact (not_le.1 h).le
      · exact hmin x hx

private theorem any_false_iff {P : Type*} (f : P → Bool) (l : List P) : (l.map f).any id = false ↔ ∀ p ∈ l, f p = false := by
  simp [List.any_eq_false]

/-- The common fallback. -/
private theorem withNearest_selects {P : Type*} (o : SectorOpts K) (f : P → Bool) (score : P → K) (pos : List P) :
    (pos ≠ [] ∨ o.nearest = false) →
    ∃ mask, withNearest o (pos.map score) (pos.map f) = .ok mask ∧ Selects (fun p => f p = true) score o.nearest pos mask := by
  intro hne
  unfold withNearest
  by_cases hany : (pos.map f).any id
  · simp only [hany, Bool.not_true, Bool.false_and, Bool.false_eq_true, if_false]
    refine ⟨_, rfl, by simp, ?_, ?_⟩
    · intro _ k p hk
      rw [List.getElem?_map, hk]; simp
    · intro h
      exfalso
      have : (pos.map f).any id = false := (any_false_iff f pos).2 fun p hp => by simpa using h p hp
      rw [this] at hany; cases hany
  · have hany' : (pos.map f).any id = false := by simpa using hany
    have hall := (any_false_iff f pos).1 hany'
    by_cases hn : o.nearest = true
    · simp only [hany', hn, Bool.not_false, Bool.and_true, if_true]
      have hpos : pos ≠ [] := by
        rcases hne with h | h
        · exact h
        · rw [hn] at h; cases h
      have : (pos.map score).isEmpty = false := by simpa using hpos
      simp only [this, Bool.false_eq_true, if_false]
      obtain ⟨a, ha, hmin⟩ := argminList_spec (pos.map score) (by simpa using hpos)
      set k := argminList (pos.map score) with hk
      rw [List.getElem?_map] at ha
      obtain ⟨p, hp, rfl⟩ := Option.map_eq_some_iff.1 ha
      have hkl : k < pos.length := (List.getElem?_eq_some_iff.1 hp).1
      refine ⟨_, rfl, by simp [setTrue], ?_, ?_⟩
      · rintro (⟨q, hq, h⟩ | h)
        · rw [hall q hq] at h; cases h
        · cases h
      · intro _ _
        refine ⟨k, p, hp, fun q hq => hmin _ (List.mem_map_of_mem hq), fun i => ?_⟩
        unfold setTrue
        rw [List.getElem?_set]
        constructor
        · intro h
          by_contra hik
          rw [if_neg (by omega), List.getElem?_map] at h
          obtain ⟨q, hq, h⟩ := Option.map_eq_some_iff.1 h
          have := hall q (List.mem_of_getElem? hq)
          rw [this] at h; cases h
        · rintro rfl
          simp [hkl]
    · have hn' : o.nearest = false := by simpa using hn
      simp only [hany', hn', Bool.and_false, Bool.false_eq_true, if_false]
      refine ⟨_, rfl, by simp, ?_, ?_⟩
      · intro _ k p hk
        rw [List.getElem?_map, hk]; simp
      · intro _ h; cases h

private theorem Selects.congr {P : Type*} {f g : P → Prop} {s t : P → K} {n : Bool} {pos : List P} {m : List Bool}
    (h : ∀ p, f p ↔ g p) (hs : ∀ p, s p = t p) (hf : Selects f s n pos m) : Selects g t n pos m := by
  have e1 : f = g := funext fun p => propext (h p)
  have e2 : s = t := funext hs
  rw [← e1, ← e2]; exact hf

/-- `RectSector`: the points inside the rectangle given by two opposite corners (in any order), enlarged by the
tolerance if the border belongs to the sector, diminished by it if not; the fallback is the point nearest to the
centre. -/
theorem C32_rect_sector (o : SectorOpts K) (x1 x2 y1 y2 : K) (pos : List (K × K × K))
    (h : pos ≠ [] ∨ o.nearest = false) :
    ∃ mask, Sector.contains pos (.rect o x1 x2 y1 y2) = .ok mask ∧
      Selects (fun p => inRect x1 y1 x2 y2 (if o.border then o.tol else -o.tol) p.1 p.2.1)
        (fun p => dist2 p.1 p.2.1 ((x1 + x2) / 2) ((y1 + y2) / 2)) o.nearest pos mask := by
  unfold Sector.contains rectContains
  obtain ⟨mask, hm, hs⟩ := withNearest_selects o (fun p : K × K × K =>
    if o.border then
      decide (p.1 - min x1 x2 > -o.tol) && decide (p.1 - max x1 x2 < o.tol) && decide (p.2.1 - min y1 y2 > -o.tol) &&
        decide (p.2.1 - max y1 y2 < o.tol)
    else
      decide (p.1 - min x1 x2 > o.tol) && decide (p.1 - max x1 x2 < -o.tol) && decide (p.2.1 - min y1 y2 > o.tol) &&
        decide (p.2.1 - max y1 y2 < -o.tol))
    (fun p => (p.1 - (min x1 x2 + max x1 x2) / 2) ^ 2 + (p.2.1 - (min y1 y2 + max y1 y2) / 2) ^ 2) pos h
  refine ⟨mask, hm, Selects.congr (fun p => ?_) (fun p => ?_) hs⟩
  · unfold inRect
    cases o.border
    · simp only [Bool.false_eq_true, if_false, Bool.and_eq_true, decide_eq_true_eq]
      constructor
      · rintro ⟨⟨⟨a, b⟩, c⟩, d⟩; exact ⟨by linarith, by linarith, by linarith, by linarith⟩
      · rintro ⟨a, b, c, d⟩; exact ⟨⟨⟨by linarith, by linarith⟩, by linarith⟩, by linarith⟩
    · simp only [if_true, Bool.and_eq_true, decide_eq_true_eq]
      constructor
      · rintro ⟨⟨⟨a, b⟩, c⟩, d⟩; exact ⟨by linarith, by linarith, by linarith, by linarith⟩
      · rintro ⟨a, b, c, d⟩; exact ⟨⟨⟨by linarith, by linarith⟩, by linarith⟩, by linarith⟩
  · unfold dist2
    rw [min_add_max, min_add_max]

/-- The hypotheses of `C32_rect_sector` are met: -/
example := C32_rect_sector ⟨true, (1 / 100 : ℚ), true⟩ 0 1 0 1 [(0, 0, 1), (2, 2, 1)] (.inl (by simp))

/-- `RectSector3D`: the points inside the cuboid; the fallback is the point nearest to the centre *in x and y*. -/
theorem C32_rect3_sector_partial (o : SectorOpts K) (x1 x2 y1 y2 z1 z2 : K) (pos : List (K × K × K))
    (h : pos ≠ [] ∨ o.nearest = false) :
    ∃ mask, Sector.contains pos (.rect3 o x1 x2 y1 y2 z1 z2) = .ok mask ∧
      Selects (fun p => inRect x1 y1 x2 y2 (if o.border then o.tol else -o.tol) p.1 p.2.1 ∧
          min z1 z2 - (if o.border then o.tol else -o.tol) < p.2.2 ∧ p.2.2 < max z1 z2 + (if o.border then o.tol else -o.tol))
        (fun p => dist2 p.1 p.2.1 ((x1 + x2) / 2) ((y1 + y2) / 2)) o.nearest pos mask := by
  unfold Sector.contains rect3Contains
  obtain ⟨mask, hm, hs⟩ := withNearest_selects o (fun p : K × K × K =>
    if o.border then
      decide (p.1 - min x1 x2 > -o.tol) && decide (p.1 - max x1 x2 < o.tol) && decide (p.2.1 - min y1 y2 > -o.tol) &&
        decide (p.2.1 - max y1 y2 < o.tol) && decide (p.2.2 - min z1 z2 > -o.tol) && decide (p.2.2 - max z1 z2 < o.tol)
    else
      decide (p.1 - min x1 x2 > o.tol) && decide (p.1 - max x1 x2 < -o.tol) && decide (p.2.1 - min y1 y2 > o.tol) &&
        decide (p.2.1 - max y1 y2 < -o.tol) && decide (p.2.2 - min z1 z2 > o.tol) && decide (p.2.2 - max z1 z2 < -o.tol))
    (fun p => (p.1 - (min x1 x2 + max x1 x2) / 2) ^ 2 + (p.2.1 - (min y1 y2 + max y1 y2) / 2) ^ 2) pos h
  refine ⟨mask, hm, Selects.congr (fun p => ?_) (fun p => ?_) hs⟩
  · unfold inRect
    cases o.border
    · simp only [Bool.false_eq_true, if_false, Bool.and_eq_true, decide_eq_true_eq]
      constructor
      · rintro ⟨⟨⟨⟨⟨a, b⟩, c⟩, d⟩, e⟩, f⟩
        exact ⟨⟨by linarith, by linarith, by linarith, by linarith⟩, by linarith, by linarith⟩
      · rintro ⟨⟨a, b, c, d⟩, e, f⟩
        exact ⟨⟨⟨⟨⟨by linarith, by linarith⟩, by linarith⟩, by linarith⟩, by linarith⟩, by linarith⟩
    · simp only [if_true, Bool.and_eq_true, decide_eq_true_eq]
      constructor
      · rintro ⟨⟨⟨⟨⟨a, b⟩, c⟩, d⟩, e⟩, f⟩
        exact ⟨⟨by linarith, by linarith, by linarith, by linarith⟩, by linarith, by linarith⟩
      · rintro ⟨⟨a, b, c, d⟩, e, f⟩
        exact ⟨⟨⟨⟨⟨by linarith, by linarith⟩, by linarith⟩, by linarith⟩, by linarith⟩, by linarith⟩
  · unfold dist2
    rw [min_add_max, min_add_max]

/-- The hypotheses of `C32_rect3_sector_partial` are met: -/
example := C32_rect3_sector_partial ⟨true, (1 / 100 : ℚ), true⟩ 0 1 0 1 0 2 [(0, 0, 1), (2, 2, 1)] (.inl (by simp))

/-- The fallback of `RectSector3D` may select a point that is not nearest in space. -/
theorem C32_rect3_nearest_violated :
    ∃ (o : SectorOpts ℚ) (pos : List (ℚ × ℚ × ℚ)) (mask : List Bool),
      Sector.contains pos (.rect3 o 0 0 0 0 0 0) = .ok mask ∧ pos = [(0, 0, 10), (1, 0, 0)] ∧ mask = [true, false] :=
  ⟨⟨true, 1 / 10, true⟩, [(0, 0, 10), (1, 0, 0)], [true, false], by decide +kernel, rfl, rfl⟩

/-- `CircSector`: the points whose squared distance from the centre is below `r²`, plus the tolerance if the border
belongs to the sector, minus it if not; the fallback is the point nearest to the centre. -/
theorem C32_circ_sector (o : SectorOpts K) (x y r : K) (pos : List (K × K × K)) (h : pos ≠ [] ∨ o.nearest = false) :
    ∃ mask, Sector.contains pos (.circ o x y r) = .ok mask ∧
      Selects (fun p => dist2 p.1 p.2.1 x y < r ^ 2 + (if o.border then o.tol else -o.tol))
        (fun p => dist2 p.1 p.2.1 x y) o.nearest pos mask := by
  unfold Sector.contains circContains
  obtain ⟨mask, hm, hs⟩ := withNearest_selects o (fun p : K × K × K =>
    if o.border then decide ((p.1 - x) ^ 2 + (p.2.1 - y) ^ 2 - r ^ 2 < o.tol)
    else decide ((p.1 - x) ^ 2 + (p.2.1 - y) ^ 2 - r ^ 2 < -o.tol))
    (fun p => (p.1 - x) ^ 2 + (p.2.1 - y) ^ 2) pos h
  refine ⟨mask, ?_, Selects.congr (fun p => ?_) (fun p => rfl) hs⟩
  · simpa [List.map_map, Function.comp_def] using hm
  · unfold dist2
    cases o.border <;> simp only [Bool.false_eq_true, if_false, if_true, decide_eq_true_eq] <;>
      exact ⟨fun h => by linarith, fun h => by linarith⟩

/-- The hypotheses of `C32_circ_sector` are met: -/
example := C32_circ_sector ⟨true, (1 / 100 : ℚ), true⟩ 0 0 1 [(0, 0, 1), (2, 2, 1)] (.inl (by simp))

/-- With `default_nearest` a selection is never empty. -/
theorem C32_never_empty {P : Type*} {inside : P → Prop} {score : P → K} {pos : List P} {mask : List Bool}
    (h : Selects inside score true pos mask) : ∃ k : ℕ, mask[k]? = some true := by
  by_cases hp : ∃ p ∈ pos, inside p
  · obtain ⟨p, hp, hi⟩ := hp
    obtain ⟨k, hk⟩ := List.mem_iff_getElem?.1 hp
    exact ⟨k, (h.2.1 (.inl ⟨p, hp, hi⟩) k p hk).2 hi⟩
  · push Not at hp
    obtain ⟨k, p, -, -, hi⟩ := h.2.2 hp rfl
    exact ⟨k, (hi k).2 rfl⟩

/-- The hypotheses of `C32_never_empty` are met: -/
example := C32_never_empty (C32_circ_sector ⟨true, (1 / 100 : ℚ), true⟩ 9 9 1 [(0, 0, 1), (2, 2, 1)] (.inl (by simp))).choose_spec.2

/-- Polygon sectors: exactly the points passing the point-in-polygon test, as long as there is one or no fallback is
wanted. -/
theorem C32_poly_sector_partial (o : SectorOpts K) (f : K → K → Bool) (mx my : K) (pos : List (K × K × K))
    (h : (∃ p ∈ pos, f p.1 p.2.1 = true) ∨ o.nearest = false) :
    ∃ mask, Sector.contains pos (.poly o f mx my) = .ok mask ∧ mask.length = pos.length ∧
      ∀ (k : ℕ) (p : K × K × K), pos[k]? = some p → (mask[k]? = some true ↔ f p.1 p.2.1 = true) := by
  refine ⟨pos.map fun p => f p.1 p.2.1, ?_, by simp, fun k p hk => by rw [List.getElem?_map, hk]; simp⟩
  unfold Sector.contains polyFallback
  rw [if_neg]
  rcases h with ⟨p, hp, h⟩ | h
  · have : (pos.map fun p => f p.1 p.2.1).any id = true := by
      rw [List.any_map, List.any_eq_true]; exact ⟨p, hp, h⟩
    simp [this]
  · simp [h]

/-- The hypotheses of `C32_poly_sector_partial` are met: -/
example := C32_poly_sector_partial ⟨true, (1 / 100 : ℚ), true⟩ (fun x y => decide (x < y)) 0 0 [(0, 1, 1), (2, 2, 1)] (.inl ⟨(0, 1, 1), by simp, by decide +kernel⟩)

/-- The fallback of the polygon sectors selects the grid point number 0 or 1 instead of the nearest one. -/
theorem C32_poly_nearest_violated :
    ∃ (o : SectorOpts ℚ) (f : ℚ → ℚ → Bool) (mx my : ℚ) (pos : List (ℚ × ℚ × ℚ)) (mask : List Bool) (p q : ℚ × ℚ × ℚ),
      o.nearest = true ∧ (∀ p ∈ pos, f p.1 p.2.1 = false) ∧ Sector.contains pos (.poly o f mx my) = .ok mask ∧
      mask = [true, false, false] ∧ pos[0]? = some p ∧ q ∈ pos ∧ dist2 q.1 q.2.1 mx my < dist2 p.1 p.2.1 mx my := by
  refine ⟨⟨true, 0, true⟩, fun _ _ => false, 5, 5, [(0, 0, 0), (1, 0, 0), (4, 4, 0)], [true, false, false], (0, 0, 0), (4, 4, 0), ?_⟩
  decide +kernel

/-- What the fallback of the polygon sectors does for all grids: it selects the point number 0 if the first coordinate of the mean of the corners is not
larger than the second one, otherwise point number 1; if there is no such point, `contains` raises an IndexError. -/
theorem C32_poly_fallback_violated (o : SectorOpts K) (f : K → K → Bool) (mx my : K) (pos : List (K × K × K)) (ho : o.nearest = true) :
    (∀ p ∈ pos, f p.1 p.2.1 = false) → Sector.contains pos (.poly o f mx my) =
      if mx ≤ my then
        match pos with
        | [] => .error .indexError
        | _ :: rest => .ok (true :: rest.map fun _ => false)
      else
        match pos with
        | [] => .error .indexError
        | [_] => .error .indexError
        | _ :: _ :: rest => .ok (false :: true :: rest.map fun _ => false) := by
  intro h
  have e : (pos.map fun p => f p.1 p.2.1) = pos.map fun _ => false := List.map_congr_left h
  clear h
  unfold Sector.contains polyFallback
  rw [e, if_pos (by simp [ho])]
  have hk : argminList [mx, my] = if mx ≤ my then 0 else 1 := rfl
  dsimp only
  rw [hk]
  clear e
  rcases pos with _ | ⟨a, _ | ⟨b, l⟩⟩ <;> by_cases h1 : mx ≤ my <;> simp [h1, setTrue]

/-- The hypotheses of `C32_poly_fallback_violated` are met, here with the error: a grid of one point. -/
example : Sector.contains [(3, 3, 0)] (.poly ⟨true, (0 : ℚ), true⟩ (fun _ _ => false) 1 0) = .error .indexError :=
  C32_poly_fallback_violated ⟨true, (0 : ℚ), true⟩ _ 1 0 [(3, 3, 0)] rfl (by simp)

/-! ### Union -/

private theorem withNearest_length {o : SectorOpts K} {d : List K} {i m : List Bool} (h : withNearest o d i = .ok m) :
    m.length = i.length := by
  unfold withNearest at h
  split at h
  · split at h
    · cases h
    · cases h; simp [setTrue]
  · cases h; rfl

mutual
private theorem contains_length (pos : List (K × K × K)) : ∀ (s : Sector K) {m : List Bool},
    Sector.contains pos s = .ok m → m.length = pos.length
  | .whole, m, h => by unfold Sector.contains at h; cases h; simp
  | .rect o x1 x2 y1 y2, m, h => by
    unfold Sector.contains rectContains at h; rw [withNearest_length h]; simp
  | .rect3 o x1 x2 y1 y2 z1 z2, m, h => by
    unfold Sector.contains rect3Contains at h; rw [withNearest_length h]; simp
  | .circ o x y r, m, h => by
    unfold Sector.contains circContains at h; rw [withNearest_length h]; simp
  | .poly o f mx my, m, h => by
    unfold Sector.contains polyFallback at h
    split at h
    · simp only at h
      split at h
      · cases h; simp [setTrue]
      · cases h
    · cases h; simp
  | .multi l, m, h => by
    unfold Sector.contains at h
    exact containsAll_length pos l (by simp) h
private theorem containsAll_length (pos : List (K × K × K)) : ∀ (l : List (Sector K)) {acc m : List Bool},
    acc.length = pos.length → Sector.containsAll pos acc l = .ok m → m.length = pos.length
  | [], acc, m, ha, h => by unfold Sector.containsAll at h; cases h; exact ha
  | s :: l, acc, m, ha, h => by
    unfold Sector.containsAll at h
    split at h
    · cases h
    · rename_i m' hm
      exact containsAll_length pos l (by rw [List.length_zipWith, contains_length pos s hm, ha]; simp) h
end

/-- Every sector answers with one entry per point. -/
theorem C32_mask_length (pos : List (K × K × K)) (s : Sector K) (m : List Bool) (h : Sector.contains pos s = .ok m) :
    m.length = pos.length := contains_length pos s h

/-- The hypotheses of `C32_mask_length` are met: -/
example := C32_mask_length [(0, 0, 1), ((2 : ℚ), 2, 1)] (.circ ⟨true, 1 / 100, true⟩ 0 0 1) [true, false] (by decide +kernel)

private theorem containsAll_iff (pos : List (K × K × K)) : ∀ (l : List (Sector K)) {acc m : List Bool},
    acc.length = pos.length → Sector.containsAll pos acc l = .ok m →
    (∀ s ∈ l, ∃ ms, Sector.contains pos s = .ok ms) ∧
    ∀ k : ℕ, m[k]? = some true ↔ acc[k]? = some true ∨ ∃ s ∈ l, ∃ ms, Sector.contains pos s = .ok ms ∧ ms[k]? = some true
  | [], acc, m, _, h => by unfold Sector.containsAll at h; cases h; simp
  | s :: l, acc, m, ha, h => by
    unfold Sector.containsAll at h
    split at h
    · cases h
    · rename_i m' hm
      have hl := contains_length pos s hm
      obtain ⟨h1, h2⟩ := containsAll_iff pos l (acc := acc.zipWith (· || ·) m') (by rw [List.length_zipWith, hl, ha]; simp) h
      refine ⟨fun t ht => ?_, fun k => ?_⟩
      · rcases List.mem_cons.1 ht with rfl | ht
        · exact ⟨m', hm⟩
        · exact h1 t ht
      · rw [h2 k]
        have hz : (acc.zipWith (· || ·) m')[k]? = some true ↔ acc[k]? = some true ∨ m'[k]? = some true := by
          rw [List.getElem?_zipWith]
          by_cases hk : k < pos.length
          · rw [List.getElem?_eq_getElem (by omega : k < acc.length), List.getElem?_eq_getElem (by omega : k < m'.length)]
            simp
          · rw [List.getElem?_eq_none (by omega : acc.length ≤ k), List.getElem?_eq_none (by omega : m'.length ≤ k)]
            simp
        rw [hz]
        constructor
        · rintro ((h | h) | ⟨t, ht, h⟩)
          · exact .inl h
          · exact .inr ⟨s, List.mem_cons_self, m', hm, h⟩
          · exact .inr ⟨t, List.mem_cons_of_mem _ ht, h⟩
        · rintro (h | ⟨t, ht, mt, hmt, h⟩)
          · exact .inl (.inl h)
          · rcases List.mem_cons.1 ht with rfl | ht
            · rw [hm] at hmt; cases hmt; exact .inl (.inr h)
            · exact .inr ⟨t, ht, mt, hmt, h⟩

/-- `MultiSector` selects the union of what its sectors select (each with its own border rule and fallback). -/
theorem C32_multi_union (pos : List (K × K × K)) (l : List (Sector K)) (m : List Bool)
    (h : Sector.contains pos (.multi l) = .ok m) (k : ℕ) :
    m[k]? = some true ↔ ∃ s ∈ l, ∃ ms, Sector.contains pos s = .ok ms ∧ ms[k]? = some true := by
  unfold Sector.contains at h
  rw [(containsAll_iff pos l (by simp) h).2 k]
  constructor
  · rintro (h | h)
    · rw [List.getElem?_map] at h
      obtain ⟨p, -, h⟩ := Option.map_eq_some_iff.1 h
      cases h
    · exact h
  · exact .inr

/-- The hypotheses of `C32_multi_union` are met: -/
example := C32_multi_union [(0, 0, 1), ((2 : ℚ), 2, 1)] [.circ ⟨true, 1 / 100, true⟩ 0 0 1, .circ ⟨true, 1 / 100, true⟩ 9 9 1] [true, true]
  (by decide +kernel) 1

/-- `MultiSector` answers whenever all its sectors do. -/
theorem C32_multi_defined (pos : List (K × K × K)) (l : List (Sector K))
    (h : ∀ s ∈ l, ∃ ms, Sector.contains pos s = .ok ms) : ∃ m, Sector.contains pos (.multi l) = .ok m := by
  unfold Sector.contains
  generalize (pos.map fun _ => false) = acc
  induction l generalizing acc with
  | nil => exact ⟨_, by unfold Sector.containsAll; rfl⟩
  | cons s l ih =>
    obtain ⟨ms, hs⟩ := h s List.mem_cons_self
    unfold Sector.containsAll
    rw [hs]
    exact ih (fun t ht => h t (List.mem_cons_of_mem _ ht)) _

/-- The hypotheses of `C32_multi_defined` are met: -/
example := C32_multi_defined [(0, 0, 1), ((2 : ℚ), 2, 1)] [.circ ⟨true, 1 / 100, true⟩ 0 0 1, .circ ⟨true, 1 / 100, true⟩ 9 9 1]
  (by
    intro s hs
    simp only [List.mem_cons, List.not_mem_nil, or_false] at hs
    rcases hs with rfl | rfl
    · exact ⟨[true, false], by decide +kernel⟩
    · exact ⟨[false, true], by decide +kernel⟩)

end C32

/-! ### `RectGrid.indices` -/

section C32b
variable {K : Type*} [Field K] [LinearOrder K] [IsStrictOrderedRing K] [FloorRing K]

theorem mem_pos_iff (g : RectGrid K) {a b : ℕ} (hinc : 0 < g.inc) (hx : g.xMax = g.xMin + a * g.inc)
    (hy : g.yMax = g.yMin + b * g.inc) (p : K × K × K) :
    p ∈ g.pos ↔ ∃ i ≤ a, ∃ j ≤ b, p = (g.xMin + i * g.inc, g.yMin + j * g.inc, g.z) := by
  obtain ⟨hnx, hny, -, -⟩ := C31_positions g hinc hx hy
  obtain ⟨_, hpx⟩ := axis_points hinc hx
  obtain ⟨_, hpy⟩ := axis_points hinc hy
  unfold RectGrid.pos
  rw [hnx, hny]
  simp only [List.mem_flatMap, List.mem_range, List.mem_map]
  constructor
  · rintro ⟨i, hi, j, hj, rfl⟩
    exact ⟨i, by omega, j, by omega, by rw [hpx i (by omega), hpy j (by omega)]⟩
  · rintro ⟨i, hi, j, hj, rfl⟩
    exact ⟨i, by omega, j, by omega, by rw [hpx i (by omega), hpy j (by omega)]⟩

theorem indexAll_ok (g : RectGrid K) : ∀ (l : List (K × K × K)),
    (∀ p ∈ l, ∃ ij, g.index p.1 p.2.1 = .ok ij) →
    ∃ r, indexAll g l = .ok r ∧ r.length = l.length ∧ ∀ ij, ij ∈ r ↔ ∃ p ∈ l, g.index p.1 p.2.1 = .ok ij
  | [], _ => ⟨[], rfl, rfl, by simp⟩
  | p :: l, h => by
    obtain ⟨ij, hij⟩ := h p List.mem_cons_self
    obtain ⟨r, hr, hl, hm⟩ := indexAll_ok g l fun q hq => h q (List.mem_cons_of_mem _ hq)
    refine ⟨ij :: r, ?_, by simp [hl], fun kl => ?_⟩
    · unfold indexAll; rw [hij, hr]; rfl
    · rw [List.mem_cons, hm]
      constructor
      · rintro (rfl | ⟨q, hq, h⟩)
        · exact ⟨p, List.mem_cons_self, hij⟩
        · exact ⟨q, List.mem_cons_of_mem _ hq, h⟩
      · rintro ⟨q, hq, h'⟩
        rcases List.mem_cons.1 hq with rfl | hq
        · rw [hij] at h'; cases h'; exact .inl rfl
        · exact .inr ⟨q, hq, h'⟩

/-- `indices(x, y, r)`: if grid points lie in the closed disc, exactly their indices are returned. -/
theorem C32_circle_indices (g : RectGrid K) {a b : ℕ} (hinc : 0 < g.inc) (hx : g.xMax = g.xMin + a * g.inc)
    (hy : g.yMax = g.yMin + b * g.inc) (x y r : K) (h : ∃ p ∈ g.pos, dist2 p.1 p.2.1 x y ≤ r ^ 2) :
    ∃ l, circleIndices g x y r = .ok (.pairs l) ∧ ∀ i j : ℤ, (i, j) ∈ l ↔
      ∃ m n : ℕ, i = m ∧ j = n ∧ ∃ p, m < g.nx ∧ n < g.ny ∧ g.pos[m * g.ny + n]? = some p ∧ dist2 p.1 p.2.1 x y ≤ r ^ 2 := by
  obtain ⟨hnx, hny, -, hpos⟩ := C31_positions g hinc hx hy
  have hidx : ∀ i ≤ a, ∀ j ≤ b, g.index (g.xMin + i * g.inc) (g.yMin + j * g.inc) = .ok (i, j) := by
    intro i hi j hj
    obtain ⟨p, hp, h⟩ := C31_index_of_position g hinc hx hy i j (by omega) (by omega)
    rw [hpos i hi j hj] at hp; cases hp; exact h
  obtain ⟨l, hl, hlen, hmem⟩ := indexAll_ok g
    (g.pos.filter fun p => decide ((p.1 - x) ^ 2 + (p.2.1 - y) ^ 2 ≤ r ^ 2)) (by
      intro p hp
      obtain ⟨i, hi, j, hj, rfl⟩ := (mem_pos_iff g hinc hx hy p).1 (List.mem_filter.1 hp).1
      exact ⟨_, hidx i hi j hj⟩)
  have hne : l ≠ [] := by
    obtain ⟨p, hp, hd⟩ := h
    obtain ⟨i, hi, j, hj, rfl⟩ := (mem_pos_iff g hinc hx hy p).1 hp
    have : ((i : ℤ), (j : ℤ)) ∈ l := (hmem _).2 ⟨_, List.mem_filter.2 ⟨hp, by simpa [dist2] using hd⟩, hidx i hi j hj⟩
    intro h0; rw [h0] at this; cases this
  refine ⟨l, ?_, fun i j => ?_⟩
  · unfold circleIndices
    simp only [hl]
    cases l with
    | nil => exact absurd rfl hne
    | cons _ _ => rfl
  · rw [hmem]
    constructor
    · rintro ⟨p, hp, hi⟩
      rw [List.mem_filter] at hp
      obtain ⟨m, hm, n, hn, rfl⟩ := (mem_pos_iff g hinc hx hy p).1 hp.1
      rw [hidx m hm n hn] at hi
      injection hi with hi
      injection hi with h1 h2
      exact ⟨m, n, h1.symm, h2.symm, _, by omega, by omega, hpos m hm n hn, by simpa [dist2] using hp.2⟩
    · rintro ⟨m, n, rfl, rfl, p, hm, hn, hp, hd⟩
      rw [hpos m (by omega) n (by omega)] at hp
      cases hp
      refine ⟨_, List.mem_filter.2 ⟨(mem_pos_iff g hinc hx hy _).2 ⟨m, by omega, n, by omega, rfl⟩, ?_⟩,
        hidx m (by omega) n (by omega)⟩
      simpa [dist2] using hd

/-- The hypotheses of `C32_circle_indices` are met: -/
example := C32_circle_indices (a := 20) (b := 10) gridEx gridEx_inc gridEx_x gridEx_y (3 / 100) (1 / 3) (1 / 5) ⟨(0, 3 / 10, 2), by decide +kernel, by norm_num [dist2]⟩

/-- `indices(x, y, r)` without a grid point in the disc: the grid point nearest to the centre (see `C31_nearest`), and
ValueError if the centre is outside the grid. -/
theorem C32_circle_indices_empty (g : RectGrid K) (x y r : K) (h : ∀ p ∈ g.pos, r ^ 2 < dist2 p.1 p.2.1 x y) :
    circleIndices g x y r = (g.index x y).map fun c => GridSel.point c.1 c.2 := by
  have : (g.pos.filter fun p => decide ((p.1 - x) ^ 2 + (p.2.1 - y) ^ 2 ≤ r ^ 2)) = [] := by
    rw [List.filter_eq_nil_iff]
    intro p hp
    have := h p hp
    unfold dist2 at this
    simpa using this
  unfold circleIndices
  rw [this]
  simp only [indexAll]
  cases g.index x y <;> rfl

/-- The hypotheses of `C32_circle_indices_empty` are met: -/
example := C32_circle_indices_empty gridEx (3 / 100) (1 / 3) (1 / 100) (by decide +kernel)

/-- `indices(x1, y1, x2, y2)`: every grid point in the closed rectangle is selected, and no point farther than half
an increment from the rectangle is. -/
theorem C32_rect_indices_partial (g : RectGrid K) {a b : ℕ} (hinc : 0 < g.inc) (hx : g.xMax = g.xMin + a * g.inc)
    (hy : g.yMax = g.yMin + b * g.inc) (x1 y1 x2 y2 : K) (h1 : g.xMin ≤ min x1 x2) (h2 : max x1 x2 ≤ g.xMax)
    (h3 : g.yMin ≤ min y1 y2) (h4 : max y1 y2 ≤ g.yMax) :
    ∃ i1 i2 j1 j2 : ℤ, rectIndices g x1 y1 x2 y2 = .ok (.slices i1 i2 j1 j2) ∧ 0 ≤ i1 ∧ i2 ≤ g.nx ∧ 0 ≤ j1 ∧ j2 ≤ g.ny ∧
      ∀ m n : ℕ, ∀ p, m < g.nx → n < g.ny → g.pos[m * g.ny + n]? = some p →
        (min x1 x2 ≤ p.1 ∧ p.1 ≤ max x1 x2 ∧ min y1 y2 ≤ p.2.1 ∧ p.2.1 ≤ max y1 y2 →
          i1 ≤ m ∧ (m : ℤ) < i2 ∧ j1 ≤ n ∧ (n : ℤ) < j2) ∧
        (i1 ≤ m ∧ (m : ℤ) < i2 ∧ j1 ≤ n ∧ (n : ℤ) < j2 →
          min x1 x2 - g.inc / 2 ≤ p.1 ∧ p.1 ≤ max x1 x2 + g.inc / 2 ∧
            min y1 y2 - g.inc / 2 ≤ p.2.1 ∧ p.2.1 ≤ max y1 y2 + g.inc / 2) := by
  obtain ⟨hnx, hny, -, hpos⟩ := C31_positions g hinc hx hy
  have hmx : min x1 x2 ≤ max x1 x2 := min_le_max
  have hmy : min y1 y2 ≤ max y1 y2 := min_le_max
  -- one axis
  have axis : ∀ (lo hi t : K) (n : ℕ), hi = lo + n * g.inc → lo ≤ t → t ≤ hi →
      ∃ i : ℕ, pyInt ((t - lo) / g.inc + 1 / 2) = i ∧ i ≤ n ∧ lo + i * g.inc - g.inc / 2 ≤ t ∧ t < lo + i * g.inc + g.inc / 2 := by
    intro lo hi t n h hlo hhi
    have h0 : 0 ≤ (t - lo) / g.inc := div_nonneg (by linarith) hinc.le
    have h1 : (t - lo) / g.inc ≤ n := by rw [div_le_iff₀ hinc]; linarith
    obtain ⟨i, hi, hin, -⟩ := near_int (pyInt_near _ h0) h0 h1
    refine ⟨i, hi, hin, ?_, ?_⟩
    · have hf : ((i : ℤ) : K) ≤ (t - lo) / g.inc + 1 / 2 := by
        rw [← hi]; unfold pyInt; rw [if_pos (by linarith)]; exact Int.floor_le _
      push_cast at hf
      have := mul_le_mul_of_nonneg_right hf hinc.le
      rw [add_mul, div_mul_cancel₀ _ hinc.ne'] at this
      linarith
    · have hf : (t - lo) / g.inc + 1 / 2 < ((i : ℤ) : K) + 1 := by
        rw [← hi]; unfold pyInt; rw [if_pos (by linarith)]; exact Int.lt_floor_add_one _
      push_cast at hf
      have := mul_lt_mul_of_pos_right hf hinc
      rw [add_mul, div_mul_cancel₀ _ hinc.ne'] at this
      linarith
  obtain ⟨i1, e1, l1, u1, v1⟩ := axis _ _ (min x1 x2) _ hx h1 (hmx.trans h2)
  obtain ⟨i2, e2, l2, u2, v2⟩ := axis _ _ (max x1 x2) _ hx (h1.trans hmx) h2
  obtain ⟨j1, e3, l3, u3, v3⟩ := axis _ _ (min y1 y2) _ hy h3 (hmy.trans h4)
  obtain ⟨j2, e4, l4, u4, v4⟩ := axis _ _ (max y1 y2) _ hy (h3.trans hmy) h4
  refine ⟨i1, i2 + 1, j1, j2 + 1, ?_, by omega, by omega, by omega, by omega, ?_⟩
  · unfold rectIndices RectGrid.index
    rw [if_neg (by push Not; exact ⟨h1, hmx.trans h2⟩), if_neg (by push Not; exact ⟨h3, hmy.trans h4⟩), if_neg hinc.ne',
      if_neg (by push Not; exact ⟨h1.trans hmx, h2⟩), if_neg (by push Not; exact ⟨h3.trans hmy, h4⟩), if_neg hinc.ne',
      e1, e2, e3, e4]
    rfl
  · intro m n p hm hn hp
    rw [hpos m (by omega) n (by omega)] at hp
    cases hp
    have lt_of : ∀ (lo : K) (c d : ℕ), lo + c * g.inc < lo + d * g.inc + g.inc → c ≤ d := by
      intro lo c d h
      by_contra hc
      have h1 : (d : K) + 1 ≤ c := by exact_mod_cast (by omega : d + 1 ≤ c)
      have := mul_le_mul_of_nonneg_right h1 hinc.le
      linarith
    have le_of : ∀ (lo : K) (c d : ℕ), c ≤ d → lo + c * g.inc ≤ lo + d * g.inc := by
      intro lo c d h
      have h1 : (c : K) ≤ d := by exact_mod_cast h
      have := mul_le_mul_of_nonneg_right h1 hinc.le
      linarith
    constructor
    · rintro ⟨a1, a2, a3, a4⟩
      refine ⟨?_, ?_, ?_, ?_⟩
      · exact_mod_cast lt_of g.xMin i1 m (by linarith)
      · have := lt_of g.xMin m i2 (by linarith); omega
      · exact_mod_cast lt_of g.yMin j1 n (by linarith)
      · have := lt_of g.yMin n j2 (by linarith); omega
    · rintro ⟨a1, a2, a3, a4⟩
      have b1 := le_of g.xMin i1 m (by omega)
      have b2 := le_of g.xMin m i2 (by omega)
      have b3 := le_of g.yMin j1 n (by omega)
      have b4 := le_of g.yMin n j2 (by omega)
      exact ⟨by linarith, by linarith, by linarith, by linarith⟩

/-- The hypotheses of `C32_rect_indices_partial` are met: -/
example := C32_rect_indices_partial (a := 20) (b := 10) gridEx gridEx_inc gridEx_x gridEx_y (-1 / 3) (1 / 3) (1 / 2) (1 / 5) (by norm_num [gridEx]) (by norm_num [gridEx])
  (by norm_num [gridEx]) (by norm_num [gridEx])

/-- `indices` with a rectangle may select points outside the rectangle: increment 1, rectangle from 0.4 to 2; the
point 0 is selected. -/
theorem C32_rect_indices_violated :
    ∃ (g : RectGrid ℚ) (p : ℚ × ℚ × ℚ), rectIndices g (4 / 10) 0 2 2 = .ok (.slices 0 3 0 3) ∧
      g.pos[0]? = some p ∧ p.1 < 4 / 10 :=
  ⟨⟨0, 3, 0, 3, 0, 1⟩, (0, 0, 0), by decide +kernel⟩

/-- `RectGrid3D.indices`: every grid point in the closed box is selected, and no point farther than half an increment
from the box along an axis. -/
theorem C32_box_indices_partial (g : RectGrid3D K) {m : Fin 3 → ℕ} (hinc : ∀ a, 0 < g.inc a)
    (h : ∀ a, g.hi a = g.lo a + m a * g.inc a) (p q : Fin 3 → K) (h0 : ∀ a, g.lo a ≤ min (p a) (q a))
    (h1 : ∀ a, max (p a) (q a) ≤ g.hi a) :
    ∃ s e : Fin 3 → ℤ, g.indices p q = .ok ((s 0, e 0), (s 1, e 1), (s 2, e 2)) ∧ (∀ a, 0 ≤ s a ∧ e a ≤ g.n a) ∧
      ∀ a, ∀ k : ℕ, k < g.n a →
        (min (p a) (q a) ≤ g.lo a + k * g.inc a ∧ g.lo a + k * g.inc a ≤ max (p a) (q a) → s a ≤ k ∧ (k : ℤ) < e a) ∧
        (s a ≤ k ∧ (k : ℤ) < e a → min (p a) (q a) - g.inc a / 2 ≤ g.lo a + k * g.inc a ∧
          g.lo a + k * g.inc a ≤ max (p a) (q a) + g.inc a / 2) := by
  have hle : ∀ a, min (p a) (q a) ≤ max (p a) (q a) := fun a => min_le_max
  obtain ⟨hn, -, -⟩ := C31_positions_3d g hinc h
  obtain ⟨i, hi, hin, -⟩ := C31_nearest_3d g hinc h (fun a => min (p a) (q a)) h0 fun a => (hle a).trans (h1 a)
  obtain ⟨j, hj, hjn, -⟩ := C31_nearest_3d g hinc h (fun a => max (p a) (q a)) (fun a => (h0 a).trans (hle a)) h1
  have axis : ∀ (x : Fin 3 → K) (i : Fin 3 → ℕ), g.index x = .ok (i 0, i 1, i 2) → ∀ a,
      g.lo a + i a * g.inc a - g.inc a / 2 ≤ x a ∧ x a ≤ g.lo a + i a * g.inc a + g.inc a / 2 := by
    intro x i hx a
    have e : ∀ a, pyRound ((x a - g.lo a) / g.inc a) = (i a : ℤ) := by
      unfold RectGrid3D.index at hx
      split at hx
      · cases hx
      · split at hx
        · cases hx
        · split at hx
          · cases hx
          · split at hx
            · cases hx
            · simp only [Except.ok.injEq, Prod.mk.injEq] at hx
              intro a
              fin_cases a
              · exact hx.1
              · exact hx.2.1
              · exact hx.2.2
    have hr := pyRound_near ((x a - g.lo a) / g.inc a)
    rw [e a, abs_le] at hr
    push_cast at hr
    have ha := hinc a
    have d : (x a - g.lo a) / g.inc a * g.inc a = x a - g.lo a := div_mul_cancel₀ _ ha.ne'
    have r1 := mul_le_mul_of_nonneg_right hr.1 ha.le
    have r2 := mul_le_mul_of_nonneg_right hr.2 ha.le
    rw [sub_mul, d] at r1 r2
    constructor <;> linarith
  refine ⟨fun a => i a, fun a => j a + 1, ?_, fun a => ⟨by positivity, ?_⟩, fun a k hk => ?_⟩
  · unfold RectGrid3D.indices
    rw [hi, hj]
    rfl
  · have := hjn a; show (j a : ℤ) + 1 ≤ _; omega
  · obtain ⟨a1, a2⟩ := axis _ i hi a
    obtain ⟨b1, b2⟩ := axis _ j hj a
    have ha := hinc a
    have lt_of : ∀ c d : ℕ, g.lo a + c * g.inc a < g.lo a + d * g.inc a + g.inc a → c ≤ d := by
      intro c d h
      by_contra hc
      have h1 : (d : K) + 1 ≤ c := by exact_mod_cast (by omega : d + 1 ≤ c)
      have := mul_le_mul_of_nonneg_right h1 ha.le
      linarith
    have le_of : ∀ c d : ℕ, c ≤ d → g.lo a + c * g.inc a ≤ g.lo a + d * g.inc a := by
      intro c d h
      have h1 : (c : K) ≤ d := by exact_mod_cast h
      have := mul_le_mul_of_nonneg_right h1 ha.le
      linarith
    constructor
    · rintro ⟨c1, c2⟩
      have r1 := lt_of (i a) k (by linarith)
      have r2 := lt_of k (j a) (by linarith)
      constructor
      · show (i a : ℤ) ≤ k; omega
      · show (k : ℤ) < (j a : ℤ) + 1; omega
    · rintro ⟨c1, c2⟩
      have r1 := le_of (i a) k (by have : (i a : ℤ) ≤ k := c1; omega)
      have r2 := le_of k (j a) (by have : (k : ℤ) < (j a : ℤ) + 1 := c2; omega)
      constructor <;> linarith

example : ∃ g : RectGrid3D ℚ, (∀ a, 0 < g.inc a) ∧ (∀ a, g.hi a = g.lo a + (2 : ℕ) * g.inc a) ∧
    g.indices (fun _ => 1) (fun _ => 0) = .ok ((1, 3), (1, 3), (1, 3)) :=
  ⟨⟨fun _ => -1, fun _ => 1, setIncrement3D (.inl (-1))⟩, fun _ => by simp [setIncrement3D],
    fun _ => by simp [setIncrement3D]; norm_num, by decide +kernel⟩

/-- A scalar increment, positive or negative, makes positive increments along all axes, so that the hypotheses of the
theorems on `RectGrid3D` hold. -/
theorem C31_scalar_increment_3d (s : K) (hs : s ≠ 0) (a : Fin 3) :
    0 < setIncrement3D (.inl s) a ∧ (setIncrement3D (.inl s) a = s ∨ setIncrement3D (.inl s) a = -s) := by
  unfold setIncrement3D
  refine ⟨abs_pos.2 hs, ?_⟩
  exact abs_choice s

/-- The hypotheses of `C31_scalar_increment_3d` are met: -/
example := C31_scalar_increment_3d (-1 / 2 : ℚ) (by norm_num) 2

/-- Negative increments given as three values are not made positive: there are as many grid points as for the positive
value, but the index of the point at the upper end is negative. -/
theorem C31_negative_increment_violated (d : K) (hd : 0 < d) (m : ℕ) (hm : 0 < m) :
    let g : RectGrid3D K := ⟨fun _ => 0, fun _ => m * d, setIncrement3D (.inr fun _ => -d)⟩
    (∀ a, g.n a = m + 1) ∧ g.index (fun _ => m * d) = .ok (-m, -m, -m) := by
  intro g
  have hmd : 0 ≤ (m : K) * d := by positivity
  constructor
  · intro a
    have h1 : (nSteps (0 : K) (m * d) d).toNat = m + 1 := (axis_points (n := m) hd (by simp)).1
    have h2 : nSteps (0 : K) (m * d) (-d) = nSteps (0 : K) (m * d) d := by unfold nSteps; rw [abs_neg]
    show (nSteps (0 : K) (m * d) (-d)).toNat = m + 1
    rw [h2, h1]
  · have e : ((m : K) * d - 0) / -d = ((-m : ℤ) : K) := by
      push_cast
      rw [sub_zero, div_neg, mul_div_assoc, div_self hd.ne', mul_one]
    have hr : pyRound (((m : K) * d - 0) / -d) = -m := by rw [e, pyRound_int]
    show (if (m : K) * d < 0 ∨ (m : K) * d > m * d then _ else _) = _
    rw [if_neg (by push Not; exact ⟨hmd, le_refl _⟩)]
    show (if (m : K) * d < 0 ∨ (m : K) * d > m * d then _ else _) = _
    rw [if_neg (by push Not; exact ⟨hmd, le_refl _⟩)]
    show (if (m : K) * d < 0 ∨ (m : K) * d > m * d then _ else _) = _
    rw [if_neg (by push Not; exact ⟨hmd, le_refl _⟩)]
    show (if -d = 0 ∨ -d = 0 ∨ -d = 0 then _ else _) = _
    rw [if_neg (by simp [hd.ne'])]
    show Except.ok (pyRound (((m : K) * d - 0) / -d), pyRound (((m : K) * d - 0) / -d), pyRound (((m : K) * d - 0) / -d)) = _
    rw [hr]

/-- With an increment of zero the grid has one point, the lower corner, however large its extent, and every position within the
extent is looked up with a ZeroDivisionError. -/
theorem C31_zero_increment_violated (g : RectGrid K) (h : g.inc = 0) :
    g.pos = [(g.xMin, g.yMin, g.z)] ∧ g.size = 1 ∧
      ∀ x y, g.xMin ≤ x → x ≤ g.xMax → g.yMin ≤ y → y ≤ g.yMax → g.index x y = .error .zeroDivisionError := by
  have hx : g.nx = 1 := by unfold RectGrid.nx nSteps; simp [h]
  have hy : g.ny = 1 := by unfold RectGrid.ny nSteps; simp [h]
  refine ⟨?_, ?_, fun x y h1 h2 h3 h4 => ?_⟩
  · unfold RectGrid.pos
    rw [hx, hy]
    simp [List.range_succ, mgridPoint]
  · unfold RectGrid.size
    rw [hx, hy]
  · unfold RectGrid.index
    rw [if_neg (by push Not; exact ⟨h1, h2⟩), if_neg (by push Not; exact ⟨h3, h4⟩), if_pos h]

/-- The hypotheses of `C31_zero_increment_violated` are met: -/
example := C31_zero_increment_violated (⟨-1, 1, -1, 1, 1, 0⟩ : RectGrid ℚ) rfl

end C32b

/-! ## C33 -/

section C33
variable {K : Type*} [Field K] [LinearOrder K] [IsStrictOrderedRing K] [FloorRing K]

private theorem list_filter_sum (f : ℕ → K) (c : ℕ → Bool) (n : ℕ) :
    (((List.range n).filter c).map f).sum = ∑ k ∈ Finset.range n, if c k = true then f k else 0 := by
  induction n with
  | zero => simp
  | succ n ih =>
    rw [List.range_succ, List.filter_append, List.map_append, List.sum_append, ih, Finset.sum_range_succ]
    congr 1
    cases h : c n <;> simp [h]

/-- The sum over the index pairs is the sum over the selected points. -/
theorem sumAt_subdomain (ny : ℕ) (data : List K) (mask : List Bool) :
    sumAt ny data (subdomain ny mask) = maskedSum data mask := by
  unfold sumAt subdomain maskedSum
  rw [List.map_map]
  have : ((fun p : ℕ × ℕ => data.getD (p.1 * ny + p.2) 0) ∘ fun k => (k / ny, k % ny)) = fun k => data.getD k 0 := by
    funext k
    simp only [Function.comp]
    rw [Nat.div_add_mod']
  rw [this, list_filter_sum]
  refine Finset.sum_congr rfl fun k _ => ?_
  congr 1
  rw [List.getD_eq_getElem?_getD]
  cases h : mask[k]? with
  | none => simp
  | some b => cases b <;> simp

/-- `integrate` of one map: the sum of the values at the points of the sector. -/
theorem C33_integrate_map (g : RectGrid K) (data : List K) (s : Sector K) (mask : List Bool)
    (hs : s.contains g.pos = .ok mask) (hd : data.length = g.size) :
    integrate g [data] s = .ok [maskedSum data mask] := by
  unfold integrate
  rw [hs]
  simp only
  rw [if_pos (by simpa using hd), sumAt_subdomain]
  simp

/-- The hypotheses of `C33_integrate_map` are met: -/
example := C33_integrate_map ⟨0, 1, 0, 1, 0, (1 : ℚ)⟩ [1, 2, 3, 4] (.rect ⟨true, 1 / 10, false⟩ 0 0 0 1) [true, true, false, false] (by decide +kernel) (by decide +kernel)

/-- `integrate` of several maps: map by map. -/
theorem C33_integrate_maps (g : RectGrid K) (data : List (List K)) (s : Sector K) (mask : List Bool)
    (hs : s.contains g.pos = .ok mask) (hd : ∀ r ∈ data, r.length = g.size) (hn : data.length ≠ 1) (hg : g.size ≠ 0) :
    integrate g data s = .ok (data.map fun r => maskedSum r mask) := by
  unfold integrate
  rw [hs]
  simp only
  have hl : data.flatten.length = data.length * g.size := by
    rw [List.length_flatten]
    have : data.map List.length = List.replicate data.length g.size := by
      rw [List.eq_replicate_iff]; simpa using hd
    rw [this, List.sum_replicate_nat]
  rw [if_neg, if_pos]
  · congr 1
    apply List.map_congr_left
    intro r _
    exact sumAt_subdomain _ _ _
  · simpa using hd
  · rw [hl]
    intro h
    apply hn
    have := Nat.eq_of_mul_eq_mul_right (Nat.pos_of_ne_zero hg) (h.trans (Nat.one_mul _).symm)
    exact this

/-- The hypotheses of `C33_integrate_maps` are met: -/
example := C33_integrate_maps ⟨0, 1, 0, 1, 0, (1 : ℚ)⟩ [[1, 2, 3, 4], [5, 6, 7, 8]] (.rect ⟨true, 1 / 10, false⟩ 0 0 0 1) [true, true, false, false]
  (by decide +kernel) (by decide +kernel) (by decide) (by decide +kernel)

/-- No two sectors of the list select the same point. -/
def DisjointOn (pos : List (K × K × K)) (l : List (Sector K)) : Prop :=
  l.Pairwise fun s t => ∀ ms mt : List Bool, s.contains pos = .ok ms → t.contains pos = .ok mt →
    ∀ k : ℕ, ¬(ms[k]? = some true ∧ mt[k]? = some true)

private theorem maskedSum_eq_of_length (data : List K) (mask : List Bool) {n : ℕ} (h : mask.length = n) :
    maskedSum data mask = ∑ k ∈ Finset.range n, if mask[k]? = some true then data.getD k 0 else 0 := by
  unfold maskedSum; rw [h]

/-- The integral over a `MultiSector` of disjoint sectors is the sum of the integrals over the sectors. -/
theorem C33_additive (g : RectGrid K) (data : List K) (hd : data.length = g.size) (l : List (Sector K))
    (hdis : DisjointOn g.pos l) (v : List K)
    (hv : List.Forall₂ (fun s x => integrate g [data] s = .ok [x]) l v) :
    integrate g [data] (.multi l) = .ok [v.sum] := by
  -- all parts are defined
  have hdef : ∀ s x, integrate g [data] s = .ok [x] → ∃ ms, s.contains g.pos = .ok ms ∧ maskedSum data ms = x := by
    intro s x h
    cases hc : s.contains g.pos with
    | error e => unfold integrate at h; rw [hc] at h; cases h
    | ok ms =>
      rw [C33_integrate_map g data s ms hc hd] at h
      injection h with h; injection h with h
      exact ⟨ms, rfl, h⟩
  have hall : ∀ s ∈ l, ∃ ms, s.contains g.pos = .ok ms := by
    intro s hs
    obtain ⟨x, hx⟩ : ∃ x, integrate g [data] s = .ok [x] := by
      clear hdis
      induction hv with
      | nil => cases hs
      | cons h _ ih =>
        rcases List.mem_cons.1 hs with rfl | hs
        · exact ⟨_, h⟩
        · exact ih hs
    obtain ⟨ms, h, -⟩ := hdef s x hx
    exact ⟨ms, h⟩
  obtain ⟨m, hm⟩ := C32_multi_defined g.pos l hall
  rw [C33_integrate_map g data _ m hm hd]
  congr 2
  have hu := C32_multi_union g.pos l m hm
  rw [maskedSum_eq_of_length _ _ (C32_mask_length _ _ _ hm)]
  -- generalise the union
  have gen : ∀ (l : List (Sector K)) (v : List K), DisjointOn g.pos l →
      List.Forall₂ (fun s x => integrate g [data] s = .ok [x]) l v →
      ∀ Q : ℕ → Prop, [DecidablePred Q] →
      (∀ k, Q k ↔ ∃ s ∈ l, ∃ ms : List Bool, s.contains g.pos = .ok ms ∧ ms[k]? = some true) →
      ∑ k ∈ Finset.range g.pos.length, (if Q k then data.getD k 0 else 0) = v.sum := by
    intro l v hdis hv
    induction hv with
    | nil => intro Q _ hQ; simp [hQ]
    | @cons s x l v h hv ih =>
      intro Q _ hQ
      obtain ⟨ms, hms, hx⟩ := hdef s x h
      rw [maskedSum_eq_of_length _ _ (C32_mask_length _ _ _ hms)] at hx
      unfold DisjointOn at hdis
      rw [List.pairwise_cons] at hdis
      classical
      have ih' := ih hdis.2 (fun k => ∃ s ∈ l, ∃ ms : List Bool, s.contains g.pos = .ok ms ∧ ms[k]? = some true) (fun k => Iff.rfl)
      rw [List.sum_cons, ← hx, ← ih', ← Finset.sum_add_distrib]
      refine Finset.sum_congr rfl fun k _ => ?_
      by_cases h1 : ms[k]? = some true
      · have h2 : ¬∃ s ∈ l, ∃ ms : List Bool, s.contains g.pos = .ok ms ∧ ms[k]? = some true := by
          rintro ⟨t, ht, mt, hmt, h⟩
          exact hdis.1 t ht ms mt hms hmt k ⟨h1, h⟩
        rw [if_pos h1, if_neg h2, if_pos ((hQ k).2 ⟨s, List.mem_cons_self, ms, hms, h1⟩), add_zero]
      · by_cases h2 : ∃ s ∈ l, ∃ ms : List Bool, s.contains g.pos = .ok ms ∧ ms[k]? = some true
        · rw [if_neg h1, if_pos h2, zero_add, if_pos]
          obtain ⟨t, ht, h⟩ := h2
          exact (hQ k).2 ⟨t, List.mem_cons_of_mem _ ht, h⟩
        · rw [if_neg h1, if_neg h2, if_neg, add_zero]
          rw [hQ]
          rintro ⟨t, ht, mt, hmt, h⟩
          rcases List.mem_cons.1 ht with rfl | ht
          · rw [hms] at hmt; cases hmt; exact h1 h
          · exact h2 ⟨t, ht, mt, hmt, h⟩
  exact gen l v hdis hv (fun k => m[k]? = some true) hu

private theorem getD_nonneg {data : List K} (h : ∀ x ∈ data, 0 ≤ x) (k : ℕ) : 0 ≤ data.getD k 0 := by
  rw [List.getD_eq_getElem?_getD]
  cases hk : data[k]? with
  | none => simp
  | some x => simpa using h x (List.mem_of_getElem? hk)

/-- For a non-negative map the integral does not decrease if the sector grows, and is not negative. -/
theorem C33_monotone (g : RectGrid K) (data : List K) (hd : data.length = g.size) (h0 : ∀ x ∈ data, 0 ≤ x)
    (s t : Sector K) (ms mt : List Bool) (hs : s.contains g.pos = .ok ms) (ht : t.contains g.pos = .ok mt)
    (hsub : ∀ k : ℕ, ms[k]? = some true → mt[k]? = some true) :
    ∃ a b, integrate g [data] s = .ok [a] ∧ integrate g [data] t = .ok [b] ∧ 0 ≤ a ∧ a ≤ b := by
  refine ⟨_, _, C33_integrate_map g data s ms hs hd, C33_integrate_map g data t mt ht hd, ?_, ?_⟩
  · unfold maskedSum
    apply Finset.sum_nonneg
    intro k _
    split
    · exact getD_nonneg h0 k
    · exact le_refl _
  · rw [maskedSum_eq_of_length _ _ (C32_mask_length _ _ _ hs), maskedSum_eq_of_length _ _ (C32_mask_length _ _ _ ht)]
    apply Finset.sum_le_sum
    intro k _
    by_cases h1 : ms[k]? = some true
    · rw [if_pos h1, if_pos (hsub k h1)]
    · rw [if_neg h1]
      split
      · exact getD_nonneg h0 k
      · exact le_refl _

/-- The hypotheses of `C33_monotone` are met: -/
example := C33_monotone ⟨0, 1, 0, 1, 0, (1 : ℚ)⟩ [1, 2, 3, 4] (by decide +kernel) (by decide +kernel) (.rect ⟨true, 1 / 10, false⟩ 0 0 0 0)
  (.rect ⟨true, 1 / 10, false⟩ 0 0 0 1) [true, false, false, false] [true, true, false, false] (by decide +kernel) (by decide +kernel)
  (fun k h => by
    rcases k with _ | _ | _ | _ | k <;> simp_all)

/-- The integral does not decrease if the map grows. -/
theorem C33_monotone_map (g : RectGrid K) (d1 d2 : List K) (h1 : d1.length = g.size) (h2 : d2.length = g.size)
    (hle : ∀ k : ℕ, d1.getD k 0 ≤ d2.getD k 0) (s : Sector K) (m : List Bool) (hs : s.contains g.pos = .ok m) :
    ∃ a b, integrate g [d1] s = .ok [a] ∧ integrate g [d2] s = .ok [b] ∧ a ≤ b := by
  refine ⟨_, _, C33_integrate_map g d1 s m hs h1, C33_integrate_map g d2 s m hs h2, ?_⟩
  unfold maskedSum
  apply Finset.sum_le_sum
  intro k _
  split
  · exact hle k
  · exact le_refl _

/-- The hypotheses of `C33_monotone_map` are met: -/
example := C33_monotone_map ⟨0, 1, 0, 1, 0, (1 : ℚ)⟩ [1, 2, 3, 4] [2, 2, 5, 4] (by decide +kernel) (by decide +kernel)
  (fun k => by rcases k with _ | _ | _ | _ | k <;> simp <;> norm_num) (.rect ⟨true, 1 / 10, false⟩ 0 0 0 1) [true, true, false, false] (by decide +kernel)

/-- The integral over a sector covering the grid is the sum of the map; `Sector()` covers every grid. -/
theorem C33_covering (g : RectGrid K) (data : List K) (hd : data.length = g.size) (s : Sector K) (m : List Bool)
    (hs : s.contains g.pos = .ok m) (hcov : ∀ k < g.pos.length, m[k]? = some true) :
    integrate g [data] s = .ok [data.sum] ∧ integrate g [data] .whole = .ok [data.sum] := by
  have key : ∀ (t : Sector K) (mt : List Bool), t.contains g.pos = .ok mt → (∀ k < g.pos.length, mt[k]? = some true) →
      integrate g [data] t = .ok [data.sum] := by
    intro t mt ht hc
    rw [C33_integrate_map g data t mt ht hd, maskedSum_eq_of_length _ _ (C32_mask_length _ _ _ ht)]
    congr 2
    rw [Finset.sum_congr rfl fun k hk => if_pos (hc k (Finset.mem_range.1 hk)), C31_size, ← hd]
    clear hd
    induction data using List.reverseRecOn with
    | nil => simp
    | append_singleton l x ih =>
      rw [List.length_append, List.length_singleton, Finset.sum_range_succ, List.sum_append, List.sum_singleton]
      congr 1
      · rw [← ih]
        refine Finset.sum_congr rfl fun k hk => ?_
        rw [List.getD_eq_getElem?_getD, List.getD_eq_getElem?_getD, List.getElem?_append_left (Finset.mem_range.1 hk)]
      · rw [List.getD_eq_getElem?_getD, List.getElem?_append_right (le_refl _)]; simp
  refine ⟨key s m hs hcov, key .whole (g.pos.map fun _ => true) (by unfold Sector.contains; rfl) ?_⟩
  intro k hk
  rw [List.getElem?_map, List.getElem?_eq_getElem hk]; rfl

/-- Two disjoint sectors covering a grid. -/
example : ∃ (g : RectGrid ℚ) (s t : Sector ℚ), DisjointOn g.pos [s, t] ∧
    integrate g [[1, 2, 3, 4]] s = .ok [3] ∧ integrate g [[1, 2, 3, 4]] t = .ok [7] ∧
    integrate g [[1, 2, 3, 4]] (.multi [s, t]) = .ok [10] := by
  refine ⟨⟨0, 1, 0, 1, 0, 1⟩, .rect ⟨true, 1 / 10, false⟩ 0 0 0 1, .rect ⟨true, 1 / 10, false⟩ 1 1 0 1, ?_,
    by decide +kernel, by decide +kernel, by decide +kernel⟩
  unfold DisjointOn
  rw [List.pairwise_cons]
  refine ⟨fun u hu ms mt hs ht k => ?_, by simp⟩
  rw [List.mem_singleton] at hu
  subst hu
  have e1 : Sector.contains (RectGrid.pos (⟨0, 1, 0, 1, 0, 1⟩ : RectGrid ℚ)) (.rect ⟨true, 1 / 10, false⟩ 0 0 0 1) =
      .ok [true, true, false, false] := by decide +kernel
  have e2 : Sector.contains (RectGrid.pos (⟨0, 1, 0, 1, 0, 1⟩ : RectGrid ℚ)) (.rect ⟨true, 1 / 10, false⟩ 1 1 0 1) =
      .ok [false, false, true, true] := by decide +kernel
  rw [e1] at hs; rw [e2] at ht
  cases hs; cases ht
  rcases k with _ | _ | _ | _ | k <;> simp

end C33

/-! ## C68 -/

section C68
variable {K : Type*} [Zero K]

private theorem spectrum_of_range (s : IntegrateState) (a b : Option ℤ) (lo hi : ℕ) (hlo : lo ≤ hi) (hhi : hi ≤ s.lines)
    (val : ℕ → K) (e : integrateRange s.readResult a b = ((lo : ℤ), (hi : ℤ))) :
    integrateSpectrum s.readResult a b val =
      .ok ((List.range s.lines).map fun k : ℕ => if lo ≤ k ∧ k < hi then val k else 0) := by
  unfold integrateSpectrum
  simp only [e]
  have hn : s.readResult.numfreq = s.lines := rfl
  rw [hn]
  split
  · congr 1
    symm
    rw [List.eq_replicate_iff]
    refine ⟨by simp, fun b hb => ?_⟩
    rw [List.mem_map] at hb
    obtain ⟨k, -, rfl⟩ := hb
    rw [if_neg (by omega)]
  · rw [if_neg (by omega)]
    simp

/-- The spectrum expected: one entry per line, the sum over the sector for the lines in the range of the frequency
data, zero elsewhere. -/
theorem C68_integrate_spectrum_partial (s : IntegrateState) (lo hi : ℕ) (hlo : lo ≤ hi) (hhi : hi ≤ s.lines) (val : ℕ → K) :
    integrateSpectrum s.readResult (some lo) (some hi) val =
      .ok ((List.range s.lines).map fun k : ℕ => if lo ≤ k ∧ k < hi then val k else 0) := by
  have e : integrateRange s.readResult (some lo) (some hi) = ((lo : ℤ), (hi : ℤ)) := by
    unfold integrateRange
    simp only
    rw [if_neg (by omega), if_neg (by omega)]
  exact spectrum_of_range s _ _ lo hi hlo hhi val e

/-- The hypotheses of `C68_integrate_spectrum_partial` are met: -/
example (s : IntegrateState) (h : s.lines = 8) := C68_integrate_spectrum_partial s 2 5 (by decide) (by omega) (fun k => (k : ℚ))

/-- Negative limits count from the end (default: `ind_low = 1`, `ind_high = -1`). -/
theorem C68_default_limits_partial (s : IntegrateState) (hs : 2 ≤ s.lines) (val : ℕ → K) :
    integrateSpectrum s.readResult (some 1) (some (-1)) val =
      .ok ((List.range s.lines).map fun k : ℕ => if 1 ≤ k ∧ k < s.lines - 1 then val k else 0) := by
  have e : integrateRange s.readResult (some 1) (some (-1)) = (((1 : ℕ) : ℤ), ((s.lines - 1 : ℕ) : ℤ)) := by
    unfold integrateRange IntegrateState.readResult
    simp only
    rw [if_neg (by omega), if_pos (by omega)]
    congr 1
    omega
  exact spectrum_of_range s _ _ 1 (s.lines - 1) (by omega) (by omega) val e

/-- The hypotheses of `C68_default_limits_partial` are met: -/
example (s : IntegrateState) (h : s.lines = 8) := C68_default_limits_partial s (by omega) (fun k => (k : ℚ))

/-- On an object whose `result` has not been read before, the spectrum is empty: the same call gives different
answers the first and the second time. -/
theorem C68_first_call_violated : ∃ (s : IntegrateState) (val : ℕ → ℕ),
    s.numfreq = 0 ∧ integrateSpectrum s (some 1) (some (-1)) val = .ok [] ∧
      integrateSpectrum s.readResult (some 1) (some (-1)) val = .ok [0, 5, 0] :=
  ⟨⟨3, 0⟩, fun _ => 5, by decide +kernel⟩

end C68

/-- The hypotheses of `C33_additive` are met: -/
example := fun h => C33_additive ⟨0, 1, 0, 1, 0, (1 : ℚ)⟩ [1, 2, 3, 4] (by decide +kernel) [.rect ⟨true, 1 / 10, false⟩ 0 0 0 1, .rect ⟨true, 1 / 10, false⟩ 1 1 0 1] h
  [3, 7] (.cons (by decide +kernel) (.cons (by decide +kernel) .nil))

end Acoular
