import Verif.Props.SimplePolygon
import Verif.Props.Grid

/-!
# Property theorems: `RectGrid.indices` with a polygon (C32)
-/

namespace Acoular

open Spec

private theorem pairUp_flat {A : Type*} : ∀ u : List (A × A), pairUp (u.flatMap fun v => [v.1, v.2]) = .ok u
  | [] => rfl
  | v :: u => by
    have := pairUp_flat u
    simp only [List.flatMap_cons, List.cons_append, List.nil_append, pairUp]
    rw [this]
    rfl

private theorem polySelect_ok (a : ℝ × ℝ) (t u : List (ℝ × ℝ)) (h : SimplePolygon (a :: t))
    (hu : u = a :: t ∨ u = a :: t ++ [a]) (smalld : ℝ) : ∀ pos : List (ℝ × ℝ × ℝ),
    ∃ l, polySelect smalld (polygonInit u) pos = .ok l ∧ ∀ p, p ∈ l ↔ p ∈ pos ∧
      (InPolygon (a :: t) (p.1, p.2.1) ∨ ∃ q, OnBoundary (a :: t) q ∧ sqDist (p.1, p.2.1) q < smalld ^ 2)
  | [] => ⟨[], rfl, by simp⟩
  | p :: pos => by
    obtain ⟨l, hl, hm⟩ := polySelect_ok a t u h hu smalld pos
    obtain ⟨r, hr, hs, -, -⟩ := C32_simple_selection a t u h hu (p.1, p.2.1) smalld 0
    refine ⟨if polyNonneg smalld r then p :: l else l, ?_, ?_⟩
    · unfold polySelect
      rw [hr, hl]
      rfl
    · intro q
      by_cases hq : polyNonneg smalld r = true
      · rw [if_pos hq, List.mem_cons, hm, List.mem_cons]
        constructor
        · rintro (rfl | h1)
          · exact ⟨.inl rfl, hs.1 hq⟩
          · exact ⟨.inr h1.1, h1.2⟩
        · rintro ⟨rfl | h1, h2⟩
          · exact .inl rfl
          · exact .inr ⟨h1, h2⟩
      · rw [if_neg hq, hm, List.mem_cons]
        constructor
        · rintro ⟨h1, h2⟩
          exact ⟨.inr h1, h2⟩
        · rintro ⟨rfl | h1, h2⟩
          · exact absurd (hs.2 h2) hq
          · exact ⟨h1, h2⟩

private theorem dispatch (g : RectGrid ℝ) (smalld : ℝ) (u : List (ℝ × ℝ)) (hu : 3 ≤ u.length) :
    gridIndices g smalld (u.flatMap fun v => [v.1, v.2]) = polyIndices g smalld u := by
  match u, hu with
  | v1 :: v2 :: v3 :: u, _ =>
    have h := pairUp_flat (v1 :: v2 :: v3 :: u)
    simp only [List.flatMap_cons, List.cons_append, List.nil_append] at h ⊢
    simp only [gridIndices, h]

/-- `indices(x1, y1, x2, y2, ..., xn, yn)` for a simple polygon with three or more vertices: if grid points lie in the polygon
(or closer than `smalld` = 1e-12 to its boundary), exactly their indices are returned. -/
theorem C32_polygon_indices (g : RectGrid ℝ) {na nb : ℕ} (hinc : 0 < g.inc) (hx : g.xMax = g.xMin + na * g.inc)
    (hy : g.yMax = g.yMin + nb * g.inc) (a : ℝ × ℝ) (t u : List (ℝ × ℝ)) (h : SimplePolygon (a :: t))
    (hu : u = a :: t ∨ u = a :: t ++ [a]) (smalld : ℝ)
    (hne : ∃ p ∈ g.pos, InPolygon (a :: t) (p.1, p.2.1)) :
    ∃ l, gridIndices g smalld (u.flatMap fun v => [v.1, v.2]) = .ok (.pairs l) ∧ ∀ i j : ℤ, (i, j) ∈ l ↔
      ∃ m n : ℕ, i = m ∧ j = n ∧ ∃ p, m < g.nx ∧ n < g.ny ∧ g.pos[m * g.ny + n]? = some p ∧
        (InPolygon (a :: t) (p.1, p.2.1) ∨ ∃ q, OnBoundary (a :: t) q ∧ sqDist (p.1, p.2.1) q < smalld ^ 2) := by
  have hlen : 3 ≤ u.length := by
    have := h.1
    rcases hu with rfl | rfl
    · exact this
    · simp at this ⊢; omega
  rw [dispatch g smalld u hlen]
  obtain ⟨sel, hsel, hm⟩ := polySelect_ok a t u h hu smalld g.pos
  obtain ⟨hnx, hny, -, hpos⟩ := C31_positions g hinc hx hy
  have hidx : ∀ i ≤ na, ∀ j ≤ nb, g.index (g.xMin + i * g.inc) (g.yMin + j * g.inc) = .ok (i, j) := by
    intro i hi j hj
    obtain ⟨p, hp, h⟩ := C31_index_of_position g hinc hx hy i j (by omega) (by omega)
    rw [hpos i hi j hj] at hp; cases hp; exact h
  obtain ⟨l, hl, -, hmem⟩ := indexAll_ok g sel (by
      intro p hp
      obtain ⟨i, hi, j, hj, rfl⟩ := (mem_pos_iff g hinc hx hy p).1 ((hm p).1 hp).1
      exact ⟨_, hidx i hi j hj⟩)
  have hne' : l ≠ [] := by
    obtain ⟨p, hp, hd⟩ := hne
    obtain ⟨i, hi, j, hj, rfl⟩ := (mem_pos_iff g hinc hx hy p).1 hp
    have : ((i : ℤ), (j : ℤ)) ∈ l := (hmem _).2 ⟨_, (hm _).2 ⟨hp, .inl hd⟩, hidx i hi j hj⟩
    intro h0; rw [h0] at this; cases this
  refine ⟨l, ?_, fun i j => ?_⟩
  · unfold polyIndices
    rw [hsel]
    simp only [hl]
    cases l with
    | nil => exact absurd rfl hne'
    | cons _ _ => rfl
  · rw [hmem]
    constructor
    · rintro ⟨p, hp, hi⟩
      rw [hm] at hp
      obtain ⟨m, hm', n, hn, rfl⟩ := (mem_pos_iff g hinc hx hy p).1 hp.1
      rw [hidx m hm' n hn] at hi
      injection hi with hi
      injection hi with h1 h2
      exact ⟨m, n, h1.symm, h2.symm, _, by omega, by omega, hpos m hm' n hn, hp.2⟩
    · rintro ⟨m, n, rfl, rfl, p, hm', hn, hp, hd⟩
      rw [hpos m (by omega) n (by omega)] at hp
      cases hp
      exact ⟨_, (hm _).2 ⟨(mem_pos_iff g hinc hx hy _).2 ⟨m, by omega, n, by omega, rfl⟩, hd⟩,
        hidx m (by omega) n (by omega)⟩

/-- Without a grid point in the polygon or at its boundary: the grid point nearest to the mean of the vertices (see `C31_nearest`),
and ValueError if the mean is outside the grid. -/
theorem C32_polygon_indices_empty (g : RectGrid ℝ) (a : ℝ × ℝ) (t u : List (ℝ × ℝ)) (h : SimplePolygon (a :: t))
    (hu : u = a :: t ∨ u = a :: t ++ [a]) (smalld : ℝ)
    (hne : ∀ p ∈ g.pos, ¬ InPolygon (a :: t) (p.1, p.2.1) ∧ ∀ q, OnBoundary (a :: t) q → smalld ^ 2 ≤ sqDist (p.1, p.2.1) q) :
    gridIndices g smalld (u.flatMap fun v => [v.1, v.2]) =
      (g.index ((u.map Prod.fst).sum / u.length) ((u.map Prod.snd).sum / u.length)).map fun c => GridSel.point c.1 c.2 := by
  have hlen : 3 ≤ u.length := by
    have := h.1
    rcases hu with rfl | rfl
    · exact this
    · simp at this ⊢; omega
  rw [dispatch g smalld u hlen]
  obtain ⟨sel, hsel, hm⟩ := polySelect_ok a t u h hu smalld g.pos
  have hs : sel = [] := by
    rw [List.eq_nil_iff_forall_not_mem]
    intro p hp
    obtain ⟨h1, h2 | ⟨q, hq, h2⟩⟩ := (hm p).1 hp
    · exact (hne p h1).1 h2
    · exact absurd h2 (not_lt.2 ((hne p h1).2 q hq))
  subst hs
  unfold polyIndices
  rw [hsel]
  rfl

/-- An odd number of coordinates (other than three) is refused. -/
theorem C32_polygon_indices_odd (g : RectGrid ℝ) (smalld : ℝ) (r : List ℝ) (h3 : r.length ≠ 3) (ho : r.length % 2 = 1) :
    gridIndices g smalld r = .error .valueError := by
  have hp : ∀ r : List ℝ, r.length % 2 = 1 → pairUp r = .error .valueError := by
    intro r
    induction h : r.length using Nat.strong_induction_on generalizing r with
    | _ n ih =>
      intro hn
      match r, h with
      | [], h => simp at h; omega
      | [_], _ => rfl
      | x :: y :: l, h =>
        simp only [List.length_cons] at h
        unfold pairUp
        rw [ih l.length (by omega) l rfl (by omega)]
        rfl
  unfold gridIndices
  split
  · exact absurd rfl h3
  · simp at ho
  · rw [hp r ho]

private noncomputable def polyGrid : RectGrid ℝ := ⟨0, 4, 0, 4, 1, 1 / 2⟩

/-- The hypotheses of `C32_polygon_indices` are met by a polygon that is not convex: -/
example := C32_polygon_indices (na := 8) (nb := 8) polyGrid (by norm_num [polyGrid]) (by norm_num [polyGrid]) (by norm_num [polyGrid])
  _ _ _ arrow_simple (.inl rfl) 0 ⟨(1 / 2, 1 / 2, 1),
    (mem_pos_iff (a := 8) (b := 8) polyGrid (by norm_num [polyGrid]) (by norm_num [polyGrid]) (by norm_num [polyGrid]) _).2
      ⟨1, by norm_num, 1, by norm_num, by norm_num [polyGrid]⟩,
    .inr (by have := arrow_winding.1; unfold arrow at this; rw [this]; exact one_ne_zero)⟩

private noncomputable def notchGrid : RectGrid ℝ := ⟨2, 2, 2, 2, 0, 1⟩

/-- The hypotheses of `C32_polygon_indices_empty` are met: the only grid point lies in the notch. -/
example := C32_polygon_indices_empty notchGrid _ _ _ arrow_simple (.inl rfl) 0 (by
  intro p hp
  obtain ⟨i, hi, j, hj, rfl⟩ := (mem_pos_iff (a := 0) (b := 0) notchGrid (by norm_num [notchGrid]) (by norm_num [notchGrid])
    (by norm_num [notchGrid]) p).1 hp
  obtain rfl : i = 0 := by omega
  obtain rfl : j = 0 := by omega
  constructor
  · have e : ((notchGrid.xMin + ((0 : ℕ) : ℝ) * notchGrid.inc, notchGrid.yMin + ((0 : ℕ) : ℝ) * notchGrid.inc) : ℝ × ℝ) = (2, 2) := by
      simp [notchGrid]
    simp only [e]
    rintro (⟨i, hi, s, s0, s1, e⟩ | hc)
    · have hi : i < 4 := hi
      have x := congrArg Prod.fst e
      have y := congrArg Prod.snd e
      interval_cases i <;> simp [vertex] at x y <;> grind
    · exact hc arrow_winding.2
  · intro q _
    unfold sqDist
    rw [zero_pow two_ne_zero]
    positivity)

/-- The hypotheses of `C32_polygon_indices_odd` are met: -/
example := C32_polygon_indices_odd polyGrid 0 [0, 0, 1, 0, 1] (by decide) (by decide)

end Acoular
