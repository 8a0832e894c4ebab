import Verif.Lemmas.Polygon
import Verif.Model.Grid
import Verif.Props.Grid
import Mathlib.Algebra.BigOperators.Intervals
import Mathlib.Algebra.Order.BigOperators.Group.Finset
import Mathlib.Tactic.NormNum

/-!
# Property theorems: the point-in-polygon test (C32)

For every convex polygon, however listed (open or closed, in either sense), the test separates inside and outside and
the value returned is the distance to the boundary.
-/

set_option linter.unusedSectionVars false

namespace Acoular

open Spec

variable {K : Type*} [Field K] [LinearOrder K] [IsStrictOrderedRing K]

private theorem convexSeq {v : List (K × K)} (h : ConvexCCW v) : ConvexSeq (vertex v) v.length := by
  obtain ⟨hn, hc⟩ := h
  have hpos : 0 < v.length := by omega
  have hm : ∀ i, vertex v (i % v.length) = vertex v i := fun i => by unfold vertex; rw [Nat.mod_mod]
  have hs : ∀ i, vertex v (i % v.length + 1) = vertex v (i + 1) := fun i => by unfold vertex; rw [Nat.mod_add_mod]
  refine ⟨hn, fun i => by unfold vertex; rw [Nat.add_mod_right], fun i k => ?_, fun i => ?_⟩
  · by_cases h1 : k % v.length = i % v.length
    · have : vertex v k = vertex v i := by unfold vertex; rw [h1]
      rw [this]; unfold leftOf; simp
    · by_cases h2 : k % v.length = (i + 1) % v.length
      · have : vertex v k = vertex v (i + 1) := by unfold vertex; rw [h2]
        rw [this]; unfold leftOf; rw [mul_comm]; simp
      · have := hc (i % v.length) (Nat.mod_lt _ hpos) (k % v.length) (Nat.mod_lt _ hpos) h1 (by rwa [Nat.mod_add_mod])
        rw [hm, hm, hs] at this
        exact this.le
  · have hne1 : (i + 2) % v.length ≠ i % v.length := by
      intro h
      have : (2 : ℕ) % v.length = 0 := by
        have := Nat.sub_mod_eq_zero_of_mod_eq h
        rwa [show i + 2 - i = 2 by omega] at this
      rw [Nat.mod_eq_of_lt (by omega)] at this
      omega
    have hne2 : (i + 2) % v.length ≠ (i + 1) % v.length := by
      intro h
      have : (1 : ℕ) % v.length = 0 := by
        have := Nat.sub_mod_eq_zero_of_mod_eq h
        rwa [show i + 2 - (i + 1) = 1 by omega] at this
      rw [Nat.mod_eq_of_lt (by omega)] at this
      omega
    have := hc (i % v.length) (Nat.mod_lt _ hpos) ((i + 2) % v.length) (Nat.mod_lt _ hpos) hne1 (by rwa [Nat.mod_add_mod])
    rwa [hm, hm, hs] at this

theorem pt_closed (a : K × K) (t : List (K × K)) (i : ℕ) (hi : i ≤ (a :: t).length) :
    pt (a :: t ++ [a]) i = vertex (a :: t) i := by
  unfold pt vertex
  rcases hi.lt_or_eq with h | h
  · rw [Nat.mod_eq_of_lt h, List.getD_eq_getElem?_getD, List.getD_eq_getElem?_getD, List.getElem?_append_left h]
  · rw [h, Nat.mod_self, List.getD_eq_getElem?_getD, List.getElem?_append_right (le_refl _)]
    simp

theorem polyDet_closed (w : List (K × K)) (n : ℕ) (hl : w.length = n + 1) (hc : pt w 0 = pt w n) :
    polyDet w = ∑ i ∈ Finset.range n, ((pt w (i + 1)).2 * (pt w i).1 - (pt w (i + 1)).1 * (pt w i).2) := by
  unfold polyDet
  rw [hl]
  have : ∀ (g : ℕ → K) (m : ℕ), ((List.range m).map g).sum = ∑ i ∈ Finset.range m, g i := by
    intro g m
    induction m with
    | zero => simp
    | succ m ih => rw [List.range_succ, List.map_append, List.sum_append, ih, Finset.sum_range_succ]; simp
  rw [this, Finset.sum_range_succ']
  simp only [if_true, Nat.add_sub_cancel, hc]
  rw [mul_comm (pt w n).2, sub_self, add_zero]
  refine Finset.sum_congr rfl fun i _ => ?_
  rw [if_neg (by omega)]

private theorem polyDet_pos {a : K × K} {t : List (K × K)} (h : ConvexCCW (a :: t)) : 0 < polyDet (a :: t ++ [a]) := by
  have hc := convexSeq h
  have hl : (a :: t ++ [a]).length = (a :: t).length + 1 := by simp
  have h0 := pt_closed a t 0 (by omega)
  have hn := pt_closed a t (a :: t).length (le_refl _)
  have hper := hc.per 0
  rw [Nat.zero_add] at hper
  rw [polyDet_closed _ _ hl (by rw [h0, hn, hper])]
  set f := vertex (a :: t) with hf
  set n := (a :: t).length with hnn
  have e : ∑ i ∈ Finset.range n, ((pt (a :: t ++ [a]) (i + 1)).2 * (pt (a :: t ++ [a]) i).1 -
      (pt (a :: t ++ [a]) (i + 1)).1 * (pt (a :: t ++ [a]) i).2) = ∑ i ∈ Finset.range n, leftOf (f i) (f (i + 1)) (f 0) := by
    have tele : ∑ i ∈ Finset.range n, (((f (i + 1)).2 * (f 0).1 - (f (i + 1)).1 * (f 0).2) - ((f i).2 * (f 0).1 - (f i).1 * (f 0).2)) = 0 := by
      rw [Finset.sum_range_sub (fun i => (f i).2 * (f 0).1 - (f i).1 * (f 0).2), hper, sub_self]
    rw [← add_zero (∑ i ∈ Finset.range n, leftOf (f i) (f (i + 1)) (f 0)), ← tele, ← Finset.sum_add_distrib]
    refine Finset.sum_congr rfl fun i hi => ?_
    have hi := Finset.mem_range.1 hi
    rw [pt_closed a t i (by omega), pt_closed a t (i + 1) (by omega)]
    unfold leftOf
    ring
  rw [e]
  apply Finset.sum_pos' (fun i _ => hc.ge i 0)
  refine ⟨1, Finset.mem_range.2 (by have := hc.hn; omega), ?_⟩
  have := hc.str 0
  have e2 : leftOf (f 1) (f (1 + 1)) (f 0) = leftOf (f 0) (f (0 + 1)) (f (0 + 2)) := by
    unfold leftOf; ring
  rw [e2]; exact this

private theorem polyDet_reverse (w : List (K × K)) (n : ℕ) (hl : w.length = n + 1) (hc : pt w 0 = pt w n) :
    polyDet w.reverse = -polyDet w := by
  have hr : ∀ i ≤ n, pt w.reverse i = pt w (n - i) := by
    intro i hi
    unfold pt
    rw [List.getD_eq_getElem?_getD, List.getD_eq_getElem?_getD, List.getElem?_reverse (by omega), hl]
    congr 2
  rw [polyDet_closed w.reverse n (by simpa using hl) (by rw [hr 0 (by omega), hr n (le_refl _)]; simpa using hc.symm),
    polyDet_closed w n hl hc, ← Finset.sum_neg_distrib, ← Finset.sum_range_reflect]
  refine Finset.sum_congr rfl fun i hi => ?_
  have hi := Finset.mem_range.1 hi
  rw [hr _ (by omega), hr _ (by omega)]
  have e1 : n - (n - 1 - i + 1) = i := by omega
  have e2 : n - (n - 1 - i) = i + 1 := by omega
  rw [e1, e2]
  ring

/-- Every listing is brought into the closed anti-clockwise form. -/
theorem polygonInit_lists {a : K × K} {t u : List (K × K)} (h : ConvexCCW (a :: t)) (hu : Lists a t u) :
    polygonInit u = a :: t ++ [a] := by
  have hc := convexSeq h
  have hpos := polyDet_pos h
  have hl : (a :: t ++ [a]).length = (a :: t).length + 1 := by simp
  have h0 : pt (a :: t ++ [a]) 0 = a := by simp [pt]
  have hn : pt (a :: t ++ [a]) (a :: t).length = a := by
    rw [pt_closed a t _ (le_refl _)]; unfold vertex; rw [Nat.mod_self]; simp
  have hrev : (a :: t ++ [a]).reverse = a :: t.reverse ++ [a] := by simp
  have hdr : polyDet (a :: t.reverse ++ [a]) < 0 := by
    rw [← hrev, polyDet_reverse _ _ hl (by rw [h0, hn])]; linarith
  -- the vertices next to `a` differ from it
  have ht : t ≠ [] := by rintro rfl; have := h.1; simp at this
  have hlen : (a :: t).length = t.length + 1 := rfl
  have last_ne : ∀ s : List (K × K), s ≠ [] → s.getLast? ≠ some a → pt (a :: s) 0 ≠ pt (a :: s) ((a :: s).length - 1) := by
    intro s hs hne
    have e : pt (a :: s) ((a :: s).length - 1) = s.getLast hs := by
      unfold pt
      rw [List.getD_eq_getElem?_getD]
      simp only [List.length_cons, Nat.add_sub_cancel]
      rw [show s.length = (s.length - 1) + 1 by have := List.length_pos_of_ne_nil hs; omega, List.getElem?_cons_succ]
      rw [List.getLast_eq_getElem, List.getElem?_eq_getElem (by have := List.length_pos_of_ne_nil hs; omega)]
      rfl
    rw [e]
    intro h'
    apply hne
    rw [List.getLast?_eq_some_getLast hs]
    simpa [pt] using h'.symm
  have h1 : pt (a :: t) 0 ≠ pt (a :: t) ((a :: t).length - 1) := by
    have e0 : pt (a :: t) 0 = vertex (a :: t) 0 := by unfold pt vertex; rw [Nat.zero_mod]
    have e1 : pt (a :: t) ((a :: t).length - 1) = vertex (a :: t) ((a :: t).length - 1) := by
      unfold pt vertex; rw [Nat.mod_eq_of_lt (by simp)]
    have := hc.ne ((a :: t).length - 1)
    rw [show (a :: t).length - 1 + 1 = 0 + (a :: t).length by simp, hc.per] at this
    rw [e0, e1]; exact this.symm
  have h2 : pt (a :: t.reverse) 0 ≠ pt (a :: t.reverse) ((a :: t.reverse).length - 1) := by
    apply last_ne _ (by simpa using ht)
    rw [List.getLast?_reverse]
    intro hh
    have e : vertex (a :: t) 1 = a := by
      unfold vertex
      rw [Nat.mod_eq_of_lt (by have := h.1; omega)]
      cases t with
      | nil => exact absurd rfl ht
      | cons b t => simp at hh; simp [hh]
    have := hc.ne 0
    apply this
    rw [Nat.zero_add, e]
    unfold vertex; simp
  have cl : ∀ s : List (K × K), pt (a :: s ++ [a]) 0 = pt (a :: s ++ [a]) ((a :: s ++ [a]).length - 1) := by
    intro s
    unfold pt
    simp only [List.getD_eq_getElem?_getD]
    rw [show (a :: s ++ [a]).length - 1 = (a :: s).length by simp, List.getElem?_append_right (le_refl _)]
    simp
  rcases hu with rfl | rfl | rfl | rfl
  · unfold polygonInit
    simp only [if_pos h1]
    have : pt (a :: t) 0 = a := by simp [pt]
    rw [this, if_neg (by linarith)]
  · unfold polygonInit
    simp only [ne_eq, cl, not_true_eq_false, if_false]
    rw [if_neg (by linarith)]
  · unfold polygonInit
    simp only [if_pos h2]
    have : pt (a :: t.reverse) 0 = a := by simp [pt]
    rw [this, if_pos hdr]
    simp
  · unfold polygonInit
    simp only [ne_eq, cl, not_true_eq_false, if_false]
    rw [if_pos hdr]
    simp

/-- The test on a convex polygon: it never fails, the distance is the distance to the boundary, and the sign is
negative exactly outside. -/
theorem C32_polygon_distance (a : K × K) (t u : List (K × K)) (h : ConvexCCW (a :: t)) (hu : Lists a t u) (p : K × K) :
    ∃ neg d, isInside (polygonInit u) p = .ok (neg, d) ∧ (neg = true ↔ ¬InConvex (a :: t) p) ∧
      (∃ q, OnBoundary (a :: t) q ∧ sqDist p q = d) ∧ ∀ q, OnBoundary (a :: t) q → d ≤ sqDist p q := by
  rw [polygonInit_lists h hu]
  have hc := convexSeq h
  set v := a :: t with hv
  set w := v ++ [a] with hw
  set f := vertex v with hf
  set n := v.length with hnn
  have hlen : w.length - 1 = n := by simp [hw, hnn]
  have hpt : ∀ i ≤ n, pt w i = f i := fun i hi => pt_closed a t i hi
  have h3 := hc.hn
  have hin_iff : InConvex v p ↔ ∀ k, 0 ≤ leftOf (f k) (f (k + 1)) p := by
    constructor
    · intro hi k
      have := hi (k % n) (Nat.mod_lt _ (by omega))
      rwa [← hf, hc.mod_eq, hc.mod_succ] at this
    · intro hi i _
      exact hi i
  have bnd : ∀ q, OnBoundary v q ↔ ∃ i < n, ∃ s, 0 ≤ s ∧ s ≤ 1 ∧ q = lerp (f i) (f (i + 1)) s := fun q => Iff.rfl
  have spec := nearest_spec w p n
  unfold isInside nearest
  rw [hlen]
  simp only at spec ⊢
  set s := (List.range n).foldl (nearStep w p) ⟨none, 0, false⟩ with hs
  rcases spec with ⟨h1, h2⟩ | ⟨d, h1, h2, h3', h4, h5⟩
  · exfalso
    obtain ⟨k, hk, d, hd, -⟩ := hc.exists_le p 0 (le_refl (0 : K)) zero_le_one
    have := h2 k hk
    rw [hpt k (by omega), hpt (k + 1) (by omega), hd] at this
    cases this
  · rw [h1]
    simp only
    rw [hpt s.j (by omega), hpt (s.j + 1) (by omega)] at h3' h4
    rw [hpt s.j (by omega), hpt (s.j + 1) (by omega)]
    have hmin : ∀ k σ, 0 ≤ σ → σ ≤ 1 → d ≤ sqDist p (lerp (f k) (f (k + 1)) σ) := by
      intro k σ h0 hs1
      obtain ⟨m, hm, d', hd', hle⟩ := hc.exists_le p k h0 hs1
      have := h5 m hm d' (by rw [hpt m (by omega), hpt (m + 1) (by omega)]; exact hd')
      exact this.trans hle
    have hmin' : ∀ q, OnBoundary v q → d ≤ sqDist p q := by
      intro q hq
      obtain ⟨i, -, σ, h0, hs1, rfl⟩ := (bnd q).1 hq
      exact hmin i σ h0 hs1
    have hne := hc.ne s.j
    by_cases hnear : 0 ≤ footParam (f s.j) (f (s.j + 1)) p ∧ footParam (f s.j) (f (s.j + 1)) p ≤ 1
    · rw [h4]
      simp only [hnear, and_self, decide_true, if_true]
      rw [sideDist_near hne hnear] at h3'
      injection h3' with hd
      refine ⟨_, d, rfl, ?_, ⟨_, (bnd _).2 ⟨s.j, h2, _, hnear.1, hnear.2, rfl⟩, hd⟩, hmin'⟩
      rw [decide_eq_true_eq, polyDet_three, hin_iff]
      constructor
      · intro hneg hin
        exact absurd (hin s.j) (not_le.2 hneg)
      · intro hout
        push Not at hout
        apply hc.outside_right hout hnear.1 hnear.2
        · have := footParam_mul hne p
          unfold dotd lerp at *
          linear_combination -this
        · intro k σ h0 hs1
          rw [hd]; exact hmin k σ h0 hs1
    · have hnear' : s.snear = false := by rw [h4]; simp only [hnear, decide_false]
      rw [hnear']
      simp only [Bool.false_eq_true, if_false]
      have ht : footParam (f s.j) (f (s.j + 1)) p < 0 := by
        by_contra hge
        have h1' : 1 < footParam (f s.j) (f (s.j + 1)) p := by
          by_contra hle
          exact hnear ⟨not_lt.1 hge, not_lt.1 hle⟩
        rw [sideDist_far hne h1'] at h3'
        cases h3'
      rw [sideDist_vertex hne ht] at h3'
      injection h3' with hd
      -- the vertex before
      have hprev : pt w (if s.j = 0 then w.length - 2 else s.j - 1) = f (s.j + n - 1) := by
        split
        · rename_i h0
          rw [show w.length - 2 = n - 1 by omega, hpt _ (by omega), h0, Nat.zero_add]
        · rename_i h0
          rw [hpt _ (by omega), show s.j + n - 1 = s.j - 1 + n by omega, hc.per]
      have e1 : f (s.j + n - 1 + 1) = f s.j := by rw [show s.j + n - 1 + 1 = s.j + n by omega, hc.per]
      have e2 : f (s.j + n - 1 + 2) = f (s.j + 1) := by rw [show s.j + n - 1 + 2 = s.j + 1 + n by omega, hc.per]
      have hl0 : lerp (f s.j) (f (s.j + 1)) 0 = f s.j := by unfold lerp; simp
      refine ⟨_, d, rfl, ?_, ⟨f s.j, (bnd _).2 ⟨s.j, h2, 0, le_refl _, zero_le_one, hl0.symm⟩, hd⟩, hmin'⟩
      rw [hprev, polyDet_three, leftOf_rev]
      have hstr := hc.str (s.j + n - 1)
      rw [e1, e2] at hstr
      have : -leftOf (f (s.j + n - 1)) (f s.j) (f (s.j + 1)) < 0 := by linarith
      simp only [this, decide_true, true_iff]
      rw [hin_iff]
      intro hin
      refine hc.inside_near hin (i := s.j + n - 1) ?_ ?_
      · intro k σ h0 hs1
        rw [e1, hd]; exact hmin k σ h0 hs1
      · rw [e1, e2, ← footParam_mul hne p]
        exact mul_neg_of_neg_of_pos ht (side_pos hne)

/-- Points of the boundary belong to the closed polygon. -/
private theorem boundary_in {v : List (K × K)} (h : ConvexCCW v) {q : K × K} (hq : OnBoundary v q) : InConvex v q := by
  have hc := convexSeq h
  obtain ⟨i, -, s, h0, h1, rfl⟩ := hq
  intro k _
  have := leftOf_lerp (vertex v k) (vertex v (k + 1)) (vertex v i) (vertex v (i + 1)) s
  unfold lerp at this
  rw [this]
  exact add_nonneg (mul_nonneg (by linarith) (hc.ge _ _)) (mul_nonneg h0 (hc.ge _ _))

theorem sqDist_zero {p q : K × K} (h : sqDist p q = 0) : p = q := by
  unfold sqDist at h
  have h1 : p.1 - q.1 = 0 := by nlinarith [sq_nonneg (p.1 - q.1), sq_nonneg (p.2 - q.2)]
  have h2 : p.2 - q.2 = 0 := by nlinarith [sq_nonneg (p.1 - q.1), sq_nonneg (p.2 - q.2)]
  exact Prod.ext (by linarith) (by linarith)

/-- The selections made with the test (`indices` with a polygon; `PolySector` with and without border): the closed
polygon up to a distance `smalld` (or the tolerance) from the boundary; the polygon without a strip of width `smalld`
along the boundary. -/
theorem C32_polygon_selection (a : K × K) (t u : List (K × K)) (h : ConvexCCW (a :: t)) (hu : Lists a t u)
    (p : K × K) (smalld tol : K) :
    ∃ r, isInside (polygonInit u) p = .ok r ∧
      (polyNonneg smalld r = true ↔ InConvex (a :: t) p ∨ ∃ q, OnBoundary (a :: t) q ∧ sqDist p q < smalld ^ 2) ∧
      (polyGeTol smalld tol r = true ↔ InConvex (a :: t) p ∨
        ∃ q, OnBoundary (a :: t) q ∧ (sqDist p q < smalld ^ 2 ∨ sqDist p q ≤ tol ^ 2)) ∧
      (polyPos smalld r = true ↔ InConvex (a :: t) p ∧
        ∀ q, OnBoundary (a :: t) q → smalld ^ 2 ≤ sqDist p q ∧ p ≠ q) := by
  obtain ⟨neg, d, hr, hneg, ⟨q, hq, hqd⟩, hmin⟩ := C32_polygon_distance a t u h hu p
  have hneg' : neg = false ↔ InConvex (a :: t) p := by
    cases neg
    · simp only [Bool.false_eq_true, false_iff, not_not] at hneg; simp [hneg]
    · simp only [true_iff] at hneg; simp [hneg]
  have hd0 : d = 0 → InConvex (a :: t) p := by
    rintro rfl
    rw [sqDist_zero hqd]; exact boundary_in h hq
  refine ⟨_, hr, ?_, ?_, ?_⟩
  · unfold polyNonneg
    simp only [Bool.or_eq_true, Bool.not_eq_true', decide_eq_true_eq, hneg']
    constructor
    · rintro ((hi | hi) | hi)
      · exact .inl hi
      · exact .inr ⟨q, hq, by rw [hqd]; exact hi⟩
      · exact .inl (hd0 hi)
    · rintro (hi | ⟨q', hq', hi⟩)
      · exact .inl (.inl hi)
      · exact .inl (.inr ((hmin q' hq').trans_lt hi))
  · unfold polyGeTol
    simp only [Bool.or_eq_true, Bool.not_eq_true', decide_eq_true_eq, hneg']
    constructor
    · rintro ((hi | hi) | hi)
      · exact .inl hi
      · exact .inr ⟨q, hq, .inl (by rw [hqd]; exact hi)⟩
      · exact .inr ⟨q, hq, .inr (by rw [hqd]; exact hi)⟩
    · rintro (hi | ⟨q', hq', hi | hi⟩)
      · exact .inl (.inl hi)
      · exact .inl (.inr ((hmin q' hq').trans_lt hi))
      · exact .inr ((hmin q' hq').trans hi)
  · unfold polyPos
    simp only [Bool.and_eq_true, Bool.not_eq_true', decide_eq_true_eq, hneg', and_assoc]
    constructor
    · rintro ⟨h1, h2, h3⟩
      refine ⟨h1, fun q' hq' => ⟨h2.trans (hmin q' hq'), ?_⟩⟩
      rintro rfl
      have h4 := hmin p hq'
      have h5 : sqDist p p = 0 := by unfold sqDist; ring
      have h6 : 0 ≤ d := by rw [← hqd]; unfold sqDist; positivity
      exact h3 (by linarith)
    · rintro ⟨h1, h2⟩
      refine ⟨h1, by rw [← hqd]; exact (h2 q hq).1, ?_⟩
      rintro rfl
      exact (h2 q hq).2 (sqDist_zero hqd)

/-- `PolySector.contains` for a convex polygon: if some grid point is selected (or the nearest point is not asked for),
the mask is true exactly at the grid points in the polygon, with or without its border. -/
theorem C32_polygon_sector_partial (a : K × K) (t u : List (K × K)) (h : ConvexCCW (a :: t)) (hu : Lists a t u)
    (smalld : K) (o : SectorOpts K) (pos : List (K × K × K))
    (hn : (∃ p ∈ pos, InConvex (a :: t) (p.1, p.2.1) ∧
        (o.border = false → ∀ q, OnBoundary (a :: t) q → smalld ^ 2 ≤ sqDist (p.1, p.2.1) q ∧ (p.1, p.2.1) ≠ q)) ∨
      o.nearest = false) :
    ∃ mask, Sector.contains pos (polySector smalld o u) = .ok mask ∧ mask.length = pos.length ∧
      ∀ (k : ℕ) (p : K × K × K), pos[k]? = some p → (mask[k]? = some true ↔
        if o.border then InConvex (a :: t) (p.1, p.2.1) ∨
          ∃ q, OnBoundary (a :: t) q ∧ (sqDist (p.1, p.2.1) q < smalld ^ 2 ∨ sqDist (p.1, p.2.1) q ≤ o.tol ^ 2)
        else InConvex (a :: t) (p.1, p.2.1) ∧
          ∀ q, OnBoundary (a :: t) q → smalld ^ 2 ≤ sqDist (p.1, p.2.1) q ∧ (p.1, p.2.1) ≠ q) := by
  unfold polySector
  set g : K → K → Bool := fun x y => match isInside (polygonInit u) (x, y) with
      | .ok r => if o.border then polyGeTol smalld o.tol r else polyPos smalld r
      | .error _ => false with hg
  have key : ∀ p : K × K × K, (g p.1 p.2.1 = true ↔
        if o.border then InConvex (a :: t) (p.1, p.2.1) ∨
          ∃ q, OnBoundary (a :: t) q ∧ (sqDist (p.1, p.2.1) q < smalld ^ 2 ∨ sqDist (p.1, p.2.1) q ≤ o.tol ^ 2)
        else InConvex (a :: t) (p.1, p.2.1) ∧
          ∀ q, OnBoundary (a :: t) q → smalld ^ 2 ≤ sqDist (p.1, p.2.1) q ∧ (p.1, p.2.1) ≠ q) := by
    intro p
    obtain ⟨r, hr, -, h2, h3⟩ := C32_polygon_selection a t u h hu (p.1, p.2.1) smalld o.tol
    simp only [hg, hr]
    split
    · exact h2
    · exact h3
  obtain ⟨mask, h1, h2, h3⟩ := C32_poly_sector_partial o g ((u.map (·.1)).sum / (u.length : K))
    ((u.map (·.2)).sum / (u.length : K)) pos (by
      rcases hn with ⟨p, hp, hi, hb⟩ | hn
      · refine .inl ⟨p, hp, (key p).2 ?_⟩
        split
        · exact .inl hi
        · rename_i h'
          exact ⟨hi, hb (by simpa using h')⟩
      · exact .inr hn)
  exact ⟨mask, h1, h2, fun k p hk => (h3 k p hk).trans (key p)⟩

/-- A convex polygon with five vertices, and a clockwise closed listing of it. -/
private theorem five : ConvexCCW ([(0, 0), (2, 0), (3, 1), (1, 3), (0, 2)] : List (ℚ × ℚ)) ∧
    Lists ((0, 0) : ℚ × ℚ) [(2, 0), (3, 1), (1, 3), (0, 2)] [(0, 0), (0, 2), (1, 3), (3, 1), (2, 0), (0, 0)] := by
  constructor
  · unfold ConvexCCW; decide +kernel
  · right; right; right; decide +kernel

/-- The hypotheses of `C32_polygon_distance` are met: -/
example := C32_polygon_distance _ _ _ five.1 five.2 (1, 1)

/-- The hypotheses of `C32_polygon_selection` are met: -/
example := C32_polygon_selection _ _ _ five.1 five.2 (1, 1) (1 / 1000) (1 / 10)

end Acoular
