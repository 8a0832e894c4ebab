import Verif.Lemmas.JordanArea
import Verif.Props.Polygon

/-!
# Property theorems: the point-in-polygon test on simple polygons (C32)

For every simple polygon, convex or not, listed open or closed and in either sense, the test separates the region the
polygon winds around from the rest of the plane, and the value returned is the distance to the boundary.
-/

set_option linter.unusedSectionVars false

namespace Acoular

open Spec

private theorem simpleSeq {v : List (ℝ × ℝ)} (h : SimplePolygon v) : SimpleSeq (vertex v) v.length := by
  obtain ⟨hn, hne, hd⟩ := h
  have hpos : 0 < v.length := by omega
  have hm : ∀ i, vertex v (i % v.length) = vertex v i := fun i => by unfold vertex; rw [Nat.mod_mod]
  have hs : ∀ i, vertex v (i % v.length + 1) = vertex v (i + 1) := fun i => by unfold vertex; rw [Nat.mod_add_mod]
  refine ⟨hn, fun i => by unfold vertex; rw [Nat.add_mod_right], fun i => ?_, fun i j hij q h1 h2 => ?_⟩
  · have := hne (i % v.length) (Nat.mod_lt _ hpos)
    rwa [hm, hs] at this
  · rw [← hm i, ← hs i] at h1
    rw [← hm j, ← hs j] at h2
    have := hd _ (Nat.mod_lt i hpos) _ (Nat.mod_lt j hpos) hij q h1 h2
    rwa [Nat.mod_add_mod, Nat.mod_add_mod, hm, hm] at this

namespace SimpleSeq

variable {f : ℕ → ℝ × ℝ} {n : ℕ}

/-- The polygon in the other sense. -/
private def rev (f : ℕ → ℝ × ℝ) (n : ℕ) : ℕ → ℝ × ℝ := fun i => f (n - i % n)

private theorem rev_side (h : SimpleSeq f n) (i : ℕ) :
    rev f n i = f (n - 1 - i % n + 1) ∧ rev f n (i + 1) = f (n - 1 - i % n) := by
  have hn := h.hn
  have hr : i % n < n := Nat.mod_lt _ (by omega)
  refine ⟨by unfold rev; congr 1; omega, ?_⟩
  unfold rev
  by_cases hc : i % n + 1 < n
  · have : (i + 1) % n = i % n + 1 := by rw [← Nat.mod_add_mod, Nat.mod_eq_of_lt hc]
    rw [this]; congr 1; omega
  · have e : i % n + 1 = n := by omega
    have : (i + 1) % n = 0 := by rw [← Nat.mod_add_mod, e, Nat.mod_self]
    rw [this, Nat.sub_zero, h.closed]; congr 1; omega

private theorem rev_simple (h : SimpleSeq f n) : SimpleSeq (rev f n) n := by
  have hn := h.hn
  have lt : ∀ i, i % n < n := fun i => Nat.mod_lt _ (by omega)
  refine ⟨hn, fun i => by unfold rev; rw [Nat.add_mod_right], fun i => ?_, fun i j hij q h1 h2 => ?_⟩
  · rw [(h.rev_side i).1, (h.rev_side i).2]
    exact (h.ne _).symm
  · have key : ∀ i j q, n - 1 - j % n = (n - 1 - i % n + 1) % n → q = f (n - 1 - j % n) →
        i % n = (j + 1) % n ∧ q = rev f n i := by
      intro i j q e eq
      have li := lt i
      have lj := lt j
      have e1 : i % n = (j + 1) % n := by
        rw [← Nat.mod_add_mod j]
        by_cases h0 : i % n = 0
        · rw [h0, show n - 1 - 0 + 1 = n by omega, Nat.mod_self] at e
          rw [h0, show j % n + 1 = n by omega, Nat.mod_self]
        · rw [Nat.mod_eq_of_lt (by omega : n - 1 - i % n + 1 < n)] at e
          rw [show j % n + 1 = i % n by omega, Nat.mod_mod]
      refine ⟨e1, ?_⟩
      rw [eq, ← (h.rev_side j).2]
      unfold rev
      rw [e1]
    rw [(h.rev_side i).1, (h.rev_side i).2] at h1
    rw [(h.rev_side j).1, (h.rev_side j).2] at h2
    have li := lt i
    have lj := lt j
    have hne : (n - 1 - i % n) % n ≠ (n - 1 - j % n) % n := by
      rw [Nat.mod_eq_of_lt (by omega : n - 1 - i % n < n), Nat.mod_eq_of_lt (by omega : n - 1 - j % n < n)]; omega
    rcases h.disj _ _ hne q (onSide_swap h1) (onSide_swap h2) with ⟨e, eq⟩ | ⟨e, eq⟩
    · rw [Nat.mod_eq_of_lt (by omega : n - 1 - j % n < n)] at e
      exact .inr (key i j q e eq)
    · rw [Nat.mod_eq_of_lt (by omega : n - 1 - i % n < n)] at e
      exact .inl (key j i q e eq)

private theorem rev_wind (h : SimpleSeq f n) (p : ℝ × ℝ) : wind (rev f n) n p = -wind f n p := by
  unfold wind
  rw [← Finset.sum_neg_distrib, ← Finset.sum_range_reflect]
  refine Finset.sum_congr rfl fun i hi => ?_
  have hi := Finset.mem_range.1 hi
  rw [(h.rev_side (n - 1 - i)).1, (h.rev_side (n - 1 - i)).2, Nat.mod_eq_of_lt (by omega : n - 1 - i < n), show n - 1 - (n - 1 - i) = i by omega,
    passes_swap (f i) (f (i + 1))]

private theorem rev_area (h : SimpleSeq f n) : area2 (rev f n) n = -area2 f n := by
  unfold area2
  rw [← Finset.sum_neg_distrib, ← Finset.sum_range_reflect]
  refine Finset.sum_congr rfl fun i hi => ?_
  have hi := Finset.mem_range.1 hi
  rw [(h.rev_side (n - 1 - i)).1, (h.rev_side (n - 1 - i)).2, Nat.mod_eq_of_lt (by omega : n - 1 - i < n), show n - 1 - (n - 1 - i) = i by omega]
  ring

private theorem rev_bd (h : SimpleSeq f n) (q : ℝ × ℝ) : Bd (rev f n) n q ↔ Bd f n q := by
  constructor
  · rintro ⟨i, _, hq⟩
    rw [(h.rev_side i).1, (h.rev_side i).2] at hq
    exact h.bd_of (onSide_swap hq)
  · rintro ⟨i, hi, hq⟩
    refine ⟨n - 1 - i, by omega, ?_⟩
    rw [(h.rev_side (n - 1 - i)).1, (h.rev_side (n - 1 - i)).2, Nat.mod_eq_of_lt (by omega : n - 1 - i < n), show n - 1 - (n - 1 - i) = i by omega]
    exact onSide_swap hq

/-- The test on a closed list in the anti-clockwise sense. -/
private theorem inside_pos (h : SimpleSeq f n) (harea : 0 ≤ area2 f n) {w : List (ℝ × ℝ)} (hlen : w.length = n + 1)
    (hpt : ∀ i ≤ n, pt w i = f i) (p : ℝ × ℝ) :
    ∃ neg d, isInside w p = .ok (neg, d) ∧ (neg = true ↔ ¬(Bd f n p ∨ wind f n p ≠ 0)) ∧
      (∃ q, Bd f n q ∧ sqDist p q = d) ∧ ∀ q, Bd f n q → d ≤ sqDist p q := by
  obtain ⟨L, hL⟩ := h.exists_level
  have hL1 : L = 1 := by
    rcases h.area_sign hL with ⟨h1, -⟩ | ⟨-, h2⟩
    · exact h1
    · linarith
  obtain ⟨neg, d, h1, h2, h3, h4, h5⟩ := h.inside_level hL hlen hpt p
  refine ⟨neg, d, h1, ⟨fun hn => ?_, fun hn => ?_⟩, h2, h3⟩
  · obtain ⟨a, b⟩ := h4 hn
    rw [hL1] at b
    rintro (hc | hc)
    · exact a hc
    · exact hc (by rw [b]; rfl)
  · cases neg
    · exfalso
      apply hn
      rcases h5 rfl with hc | hc
      · exact .inl hc
      · exact .inr (by rw [hc, hL1]; exact one_ne_zero)
    · rfl

end SimpleSeq

/-- The test on a simple polygon, convex or not, listed open or closed and in either sense: it never fails, the
distance is the distance to the boundary, and the sign is negative exactly outside. -/
theorem C32_simple_polygon (a : ℝ × ℝ) (t u : List (ℝ × ℝ)) (h : SimplePolygon (a :: t))
    (hu : u = a :: t ∨ u = a :: t ++ [a]) (p : ℝ × ℝ) :
    ∃ neg d, isInside (polygonInit u) p = .ok (neg, d) ∧ (neg = true ↔ ¬InPolygon (a :: t) p) ∧
      (∃ q, OnBoundary (a :: t) q ∧ sqDist p q = d) ∧ ∀ q, OnBoundary (a :: t) q → d ≤ sqDist p q := by
  have hs := simpleSeq h
  set v := a :: t with hv
  set n := v.length with hn
  set f := vertex v with hf
  have h3 := hs.hn
  have hpt : ∀ i ≤ n, pt (v ++ [a]) i = f i := fun i hi => pt_closed a t i hi
  have hlen : (v ++ [a]).length = n + 1 := by simp [hn]
  -- the closed list
  have hclose : polygonInit u = if polyDet (v ++ [a]) < 0 then (v ++ [a]).reverse else v ++ [a] := by
    have h0 : pt v 0 = a := by simp [pt, hv]
    have hlast : pt v (v.length - 1) = f (n - 1) := by
      rw [hf]; unfold pt vertex; rw [Nat.mod_eq_of_lt (by omega)]
    rcases hu with rfl | rfl
    · unfold polygonInit
      have hne : pt v 0 ≠ pt v (v.length - 1) := by
        rw [hlast]
        have h1 := hs.ne (n - 1)
        rw [show n - 1 + 1 = n by omega, hs.closed] at h1
        have e0 : pt v 0 = f 0 := by rw [hf]; unfold pt vertex; rw [Nat.zero_mod]
        rw [e0]; exact h1.symm
      simp only [if_pos hne]
      rw [h0]
    · unfold polygonInit
      have heq : pt (v ++ [a]) 0 = pt (v ++ [a]) ((v ++ [a]).length - 1) := by
        rw [hlen, Nat.add_sub_cancel, hpt 0 (by omega), hpt n (le_refl _), hs.closed]
      simp only [ne_eq, heq, not_true_eq_false, if_false]
  have hdet : polyDet (v ++ [a]) = SimpleSeq.area2 f n := by
    rw [polyDet_closed _ n hlen (by rw [hpt 0 (by omega), hpt n (le_refl _), hs.closed])]
    unfold SimpleSeq.area2
    refine Finset.sum_congr rfl fun i hi => ?_
    have hi := Finset.mem_range.1 hi
    rw [hpt i (by omega), hpt (i + 1) (by omega)]
  rw [hclose]
  by_cases hneg : polyDet (v ++ [a]) < 0
  · rw [if_pos hneg]
    have hr := hs.rev_simple
    have hptr : ∀ i ≤ n, pt (v ++ [a]).reverse i = SimpleSeq.rev f n i := by
      intro i hi
      have e : pt (v ++ [a]).reverse i = pt (v ++ [a]) (n - i) := by
        unfold pt
        rw [List.getD_eq_getElem?_getD, List.getD_eq_getElem?_getD, List.getElem?_reverse (by omega), hlen]
        congr 2
      rw [e, hpt _ (by omega)]
      unfold SimpleSeq.rev
      rcases hi.lt_or_eq with hlt | rfl
      · rw [Nat.mod_eq_of_lt hlt]
      · rw [Nat.mod_self, Nat.sub_self, Nat.sub_zero, hs.closed]
    obtain ⟨neg, d, h1, h2, ⟨q, hq, hd⟩, h4⟩ := hr.inside_pos (by rw [hs.rev_area, ← hdet]; linarith)
      (by simp [hn]) hptr p
    refine ⟨neg, d, h1, ?_, ⟨q, (hs.rev_bd q).1 hq, hd⟩, fun q hq => h4 q ((hs.rev_bd q).2 hq)⟩
    rw [h2, hs.rev_bd, hs.rev_wind, ne_eq, neg_eq_zero]
    exact Iff.rfl
  · rw [if_neg hneg]
    exact hs.inside_pos (by rw [← hdet]; exact not_lt.1 hneg) hlen hpt p

/-- The plane off the boundary of a simple polygon: the winding number is 0 or one other value, 1 for an anti-clockwise
and -1 for a clockwise listing, told by the sign of the area that the code computes (`InPolygon` is a single region
"inside"). -/
theorem C32_simple_winding (a : ℝ × ℝ) (t : List (ℝ × ℝ)) (h : SimplePolygon (a :: t)) :
    (0 < polyDet (a :: t ++ [a]) ∧ ∀ p, ¬OnBoundary (a :: t) p → winding (a :: t) p = 0 ∨ winding (a :: t) p = 1) ∨
    (polyDet (a :: t ++ [a]) < 0 ∧ ∀ p, ¬OnBoundary (a :: t) p → winding (a :: t) p = 0 ∨ winding (a :: t) p = -1) := by
  have hs := simpleSeq h
  have h3 := hs.hn
  have hpt : ∀ i ≤ (a :: t).length, pt (a :: t ++ [a]) i = vertex (a :: t) i := fun i hi => pt_closed a t i hi
  have hdet : polyDet (a :: t ++ [a]) = SimpleSeq.area2 (vertex (a :: t)) (a :: t).length := by
    rw [polyDet_closed _ (a :: t).length (by simp) (by rw [hpt 0 (by omega), hpt _ (le_refl _), hs.closed])]
    unfold SimpleSeq.area2
    refine Finset.sum_congr rfl fun i hi => ?_
    have hi := Finset.mem_range.1 hi
    rw [hpt i (by omega), hpt (i + 1) (by omega)]
  rw [hdet]
  obtain ⟨L, hL⟩ := hs.exists_level
  rcases hs.area_sign hL with ⟨rfl, h2⟩ | ⟨rfl, h2⟩
  · refine .inl ⟨h2, fun p hp => ?_⟩
    rcases hs.two_values hL (p := p) hp with e | e
    · exact .inr e
    · exact .inl (e.trans (by norm_num))
  · refine .inr ⟨h2, fun p hp => ?_⟩
    rcases hs.two_values hL (p := p) hp with e | e
    · exact .inl e
    · exact .inr (e.trans (by norm_num))

/-- The selections made with the test (`indices` with a polygon; `PolySector` with and without border): the closed
region up to a distance `smalld` (or the tolerance) from the boundary; the polygon without a strip of width `smalld`
along the boundary. -/
theorem C32_simple_selection (a : ℝ × ℝ) (t u : List (ℝ × ℝ)) (h : SimplePolygon (a :: t))
    (hu : u = a :: t ∨ u = a :: t ++ [a])
    (p : ℝ × ℝ) (smalld tol : ℝ) :
    ∃ r, isInside (polygonInit u) p = .ok r ∧
      (polyNonneg smalld r = true ↔ InPolygon (a :: t) p ∨ ∃ q, OnBoundary (a :: t) q ∧ sqDist p q < smalld ^ 2) ∧
      (polyGeTol smalld tol r = true ↔ InPolygon (a :: t) p ∨
        ∃ q, OnBoundary (a :: t) q ∧ (sqDist p q < smalld ^ 2 ∨ sqDist p q ≤ tol ^ 2)) ∧
      (polyPos smalld r = true ↔ InPolygon (a :: t) p ∧
        ∀ q, OnBoundary (a :: t) q → smalld ^ 2 ≤ sqDist p q ∧ p ≠ q) := by
  obtain ⟨neg, d, hr, hneg, ⟨q, hq, hqd⟩, hmin⟩ := C32_simple_polygon a t u h hu p
  have hneg' : neg = false ↔ InPolygon (a :: t) p := by
    cases neg
    · simp only [Bool.false_eq_true, false_iff, not_not] at hneg; simp [hneg]
    · simp only [true_iff] at hneg; simp [hneg]
  have hd0 : d = 0 → InPolygon (a :: t) p := by
    rintro rfl
    rw [sqDist_zero hqd]; exact .inl hq
  refine ⟨_, hr, ?_, ?_, ?_⟩
  · unfold polyNonneg
    simp only [Bool.or_eq_true, Bool.not_eq_true', decide_eq_true_eq, hneg']
    constructor
    · rintro ((hi | hi) | hi)
      · exact .inl hi
      · exact .inr ⟨q, hq, by rw [hqd]; exact hi⟩
      · exact .inl (hd0 hi)
    · rintro (hi | ⟨q', hq', hi⟩)
      · exact .inl (.inl hi)
      · exact .inl (.inr ((hmin q' hq').trans_lt hi))
  · unfold polyGeTol
    simp only [Bool.or_eq_true, Bool.not_eq_true', decide_eq_true_eq, hneg']
    constructor
    · rintro ((hi | hi) | hi)
      · exact .inl hi
      · exact .inr ⟨q, hq, .inl (by rw [hqd]; exact hi)⟩
      · exact .inr ⟨q, hq, .inr (by rw [hqd]; exact hi)⟩
    · rintro (hi | ⟨q', hq', hi | hi⟩)
      · exact .inl (.inl hi)
      · exact .inl (.inr ((hmin q' hq').trans_lt hi))
      · exact .inr ((hmin q' hq').trans hi)
  · unfold polyPos
    simp only [Bool.and_eq_true, Bool.not_eq_true', decide_eq_true_eq, hneg', and_assoc]
    constructor
    · rintro ⟨h1, h2, h3⟩
      refine ⟨h1, fun q' hq' => ⟨h2.trans (hmin q' hq'), ?_⟩⟩
      rintro rfl
      have h4 := hmin p hq'
      have h5 : sqDist p p = 0 := by unfold sqDist; ring
      have h6 : 0 ≤ d := by rw [← hqd]; unfold sqDist; positivity
      exact h3 (by linarith)
    · rintro ⟨h1, h2⟩
      refine ⟨h1, by rw [← hqd]; exact (h2 q hq).1, ?_⟩
      rintro rfl
      exact (h2 q hq).2 (sqDist_zero hqd)

/-- `PolySector.contains` for a simple polygon: if some grid point is selected (or the nearest point is not asked for),
the mask is true exactly at the grid points in the polygon, with or without its border. -/
theorem C32_simple_sector_partial (a : ℝ × ℝ) (t u : List (ℝ × ℝ)) (h : SimplePolygon (a :: t))
    (hu : u = a :: t ∨ u = a :: t ++ [a])
    (smalld : ℝ) (o : SectorOpts ℝ) (pos : List (ℝ × ℝ × ℝ))
    (hn : (∃ p ∈ pos, InPolygon (a :: t) (p.1, p.2.1) ∧
        (o.border = false → ∀ q, OnBoundary (a :: t) q → smalld ^ 2 ≤ sqDist (p.1, p.2.1) q ∧ (p.1, p.2.1) ≠ q)) ∨
      o.nearest = false) :
    ∃ mask, Sector.contains pos (polySector smalld o u) = .ok mask ∧ mask.length = pos.length ∧
      ∀ (k : ℕ) (p : ℝ × ℝ × ℝ), pos[k]? = some p → (mask[k]? = some true ↔
        if o.border then InPolygon (a :: t) (p.1, p.2.1) ∨
          ∃ q, OnBoundary (a :: t) q ∧ (sqDist (p.1, p.2.1) q < smalld ^ 2 ∨ sqDist (p.1, p.2.1) q ≤ o.tol ^ 2)
        else InPolygon (a :: t) (p.1, p.2.1) ∧
          ∀ q, OnBoundary (a :: t) q → smalld ^ 2 ≤ sqDist (p.1, p.2.1) q ∧ (p.1, p.2.1) ≠ q) := by
  unfold polySector
  set g : ℝ → ℝ → Bool := fun x y => match isInside (polygonInit u) (x, y) with
      | .ok r => if o.border then polyGeTol smalld o.tol r else polyPos smalld r
      | .error _ => false with hg
  have key : ∀ p : ℝ × ℝ × ℝ, (g p.1 p.2.1 = true ↔
        if o.border then InPolygon (a :: t) (p.1, p.2.1) ∨
          ∃ q, OnBoundary (a :: t) q ∧ (sqDist (p.1, p.2.1) q < smalld ^ 2 ∨ sqDist (p.1, p.2.1) q ≤ o.tol ^ 2)
        else InPolygon (a :: t) (p.1, p.2.1) ∧
          ∀ q, OnBoundary (a :: t) q → smalld ^ 2 ≤ sqDist (p.1, p.2.1) q ∧ (p.1, p.2.1) ≠ q) := by
    intro p
    obtain ⟨r, hr, -, h2, h3⟩ := C32_simple_selection a t u h hu (p.1, p.2.1) smalld o.tol
    simp only [hg, hr]
    split
    · exact h2
    · exact h3
  obtain ⟨mask, h1, h2, h3⟩ := C32_poly_sector_partial o g ((u.map (·.1)).sum / (u.length : ℝ))
    ((u.map (·.2)).sum / (u.length : ℝ)) pos (by
      rcases hn with ⟨p, hp, hi, hb⟩ | hn
      · refine .inl ⟨p, hp, (key p).2 ?_⟩
        split
        · exact .inl hi
        · rename_i h'
          exact ⟨hi, hb (by simpa using h')⟩
      · exact .inr hn)
  refine ⟨mask, ?_, h2, fun k p hk => (h3 k p hk).trans (key p)⟩
  convert h1 using 3
  funext x y
  rw [hg]
  simp only
  cases isInside (polygonInit u) (x, y) <;> rfl

/-- An arrowhead: a polygon with four sides that is not convex. -/
def arrow : List (ℝ × ℝ) := [(0, 0), (4, 0), (1, 1), (0, 4)]

theorem arrow_simple : SimplePolygon arrow := by
  refine ⟨by simp [arrow], ?_, ?_⟩
  · intro i hi
    have hi : i < 4 := hi
    interval_cases i <;> simp [arrow, vertex]
  · intro i hi j hj hij q h1 h2
    have hi : i < 4 := hi
    have hj : j < 4 := hj
    obtain ⟨s, s0, s1, e1⟩ := h1
    obtain ⟨r, r0, r1, e2⟩ := h2
    rw [e1] at e2 ⊢
    have x := congrArg Prod.fst e2
    have y := congrArg Prod.snd e2
    interval_cases i <;> interval_cases j <;> simp [arrow, vertex] at hij x y ⊢ <;> grind

/-- The hypotheses of `C32_simple_polygon` are met by a polygon that is not convex: -/
example := C32_simple_polygon _ _ _ arrow_simple (.inl rfl) (2, 2)

/-- The hypotheses of `C32_simple_winding`, `C32_simple_selection` and `C32_simple_sector_partial` are met: -/
example := C32_simple_winding _ _ arrow_simple
example := C32_simple_selection _ _ _ arrow_simple (.inr rfl) (2, 2) (1 / 1000) (1 / 10)
example := C32_simple_sector_partial _ _ _ arrow_simple (.inl rfl) (1 / 1000)
  { border := true, tol := 1 / 10, nearest := false } [(1 / 2, 1 / 2, 0), (2, 2, 0)] (.inr rfl)

theorem arrow_winding : winding arrow (1 / 2, 1 / 2) = 1 ∧ winding arrow (2, 2) = 0 := by
  constructor <;>
  · unfold winding
    rw [show arrow.length = 4 from rfl, Finset.sum_range_succ, Finset.sum_range_succ, Finset.sum_range_succ,
      Finset.sum_range_one]
    simp only [vertex, arrow, passesAbove, leftOf]
    norm_num

/-- The test tells a point inside the arrowhead from one in the notch, where the convex hull has a point: -/
example : (∃ d, isInside (polygonInit arrow) (1 / 2, 1 / 2) = .ok (false, d)) ∧
    ∃ d, isInside (polygonInit arrow) (2, 2) = .ok (true, d) := by
  constructor
  · obtain ⟨neg, d, h1, h2, -⟩ := C32_simple_polygon _ _ _ arrow_simple (.inl rfl) (1 / 2, 1 / 2)
    refine ⟨d, ?_⟩
    cases neg
    · exact h1
    · exact absurd (.inr (by have := arrow_winding.1; unfold arrow at this; rw [this]; exact one_ne_zero)) (h2.1 rfl)
  · obtain ⟨neg, d, h1, h2, -⟩ := C32_simple_polygon _ _ _ arrow_simple (.inl rfl) (2, 2)
    refine ⟨d, ?_⟩
    have : neg = true := by
      refine h2.2 ?_
      rintro (⟨i, hi, s, s0, s1, e⟩ | hc)
      · have hi : i < 4 := hi
        have x := congrArg Prod.fst e
        have y := congrArg Prod.snd e
        interval_cases i <;> simp [vertex] at x y <;> grind
      · exact hc arrow_winding.2
    rw [this] at h1
    exact h1

end Acoular
