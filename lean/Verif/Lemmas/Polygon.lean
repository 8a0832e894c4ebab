import Verif.Model.Polygon
import Verif.Spec.Polygon
import Mathlib.Tactic.Linarith
import Mathlib.Tactic.Ring
import Mathlib.Tactic.LinearCombination
import Mathlib.Tactic.FieldSimp
import Mathlib.Tactic.Positivity
import Mathlib.Data.Finset.Max
import Mathlib.Data.Finset.Range

/-!
# Lemmas: nearest side of a convex polygon
-/

set_option linter.unusedSectionVars false

namespace Acoular

open Spec

variable {K : Type*} [Field K] [LinearOrder K] [IsStrictOrderedRing K]

/-- `a + s (b - a)`. -/
def lerp (a b : K × K) (s : K) : K × K := (a.1 + s * (b.1 - a.1), a.2 + s * (b.2 - a.2))

/-- Inner product of `p - q` and `b - a`. -/
def dotd (p q a b : K × K) : K := (p.1 - q.1) * (b.1 - a.1) + (p.2 - q.2) * (b.2 - a.2)

theorem polyDet_three (a b c : K × K) : polyDet [a, b, c] = leftOf a b c := by
  simp [polyDet, pt, leftOf, List.range_succ]
  ring

theorem leftOf_rev (a b c : K × K) : leftOf c b a = -leftOf a b c := by
  unfold leftOf; ring

theorem leftOf_lerp (a b c d : K × K) (s : K) : leftOf a b (lerp c d s) = (1 - s) * leftOf a b c + s * leftOf a b d := by
  unfold leftOf lerp; ring

/-- Moving towards the point decreases the distance. -/
theorem closer {u1 u2 w1 w2 : K} (h : 0 < u1 * w1 + u2 * w2) :
    ∃ s, 0 < s ∧ s ≤ 1 ∧ (u1 - s * w1) ^ 2 + (u2 - s * w2) ^ 2 < u1 ^ 2 + u2 ^ 2 := by
  have hN : 0 < w1 ^ 2 + w2 ^ 2 := by
    by_contra hc
    have h1 : w1 = 0 := by nlinarith [sq_nonneg w1, sq_nonneg w2]
    have h2 : w2 = 0 := by nlinarith [sq_nonneg w1, sq_nonneg w2]
    subst h1; subst h2; simp at h
  rcases le_total (w1 ^ 2 + w2 ^ 2) (u1 * w1 + u2 * w2) with hr | hr
  · exact ⟨1, one_pos, le_refl _, by nlinarith⟩
  · refine ⟨(u1 * w1 + u2 * w2) / (w1 ^ 2 + w2 ^ 2), div_pos h hN, (div_le_one hN).2 hr, ?_⟩
    set s := (u1 * w1 + u2 * w2) / (w1 ^ 2 + w2 ^ 2) with hs
    have e : s * (w1 ^ 2 + w2 ^ 2) = u1 * w1 + u2 * w2 := div_mul_cancel₀ _ hN.ne'
    have hspos : 0 < s := div_pos h hN
    have : (u1 - s * w1) ^ 2 + (u2 - s * w2) ^ 2 = u1 ^ 2 + u2 ^ 2 - s * (u1 * w1 + u2 * w2) := by
      linear_combination s * e
    rw [this]
    nlinarith [mul_pos hspos h]

/-- Used for the angles at a convex vertex. -/
theorem acute {A B D N1 N2 : K} (hA : 0 ≤ A) (hB : 0 ≤ B) (hN2 : 0 < N2) (i3 : D ^ 2 ≤ N1 * N2) (j1 : B * N2 < A * D) :
    B * D < A * N1 := by
  have hAD : 0 < A * D := lt_of_le_of_lt (mul_nonneg hB hN2.le) j1
  have hDpos : 0 < D := by
    by_contra hcon
    have := mul_nonpos_of_nonneg_of_nonpos hA (not_lt.1 hcon)
    linarith
  have k1 : B * N2 * D < A * D * D := mul_lt_mul_of_pos_right j1 hDpos
  have k2 : A * D ^ 2 ≤ A * (N1 * N2) := mul_le_mul_of_nonneg_left i3 hA
  have e1 : (B * D) * N2 = B * N2 * D := by ring
  have e2 : A * D * D = A * D ^ 2 := by ring
  have e3 : (A * N1) * N2 = A * (N1 * N2) := by ring
  have : (B * D) * N2 < (A * N1) * N2 := by rw [e1, e3]; linarith
  exact lt_of_mul_lt_mul_right this hN2.le

theorem side_pos {a b : K × K} (h : a ≠ b) : 0 < (b.1 - a.1) ^ 2 + (b.2 - a.2) ^ 2 := by
  by_contra hc
  apply h
  have h1 : b.1 - a.1 = 0 := by nlinarith [sq_nonneg (b.1 - a.1), sq_nonneg (b.2 - a.2)]
  have h2 : b.2 - a.2 = 0 := by nlinarith [sq_nonneg (b.1 - a.1), sq_nonneg (b.2 - a.2)]
  exact Prod.ext (by linarith) (by linarith)

theorem footParam_mul {a b : K × K} (h : a ≠ b) (p : K × K) :
    footParam a b p * ((b.1 - a.1) ^ 2 + (b.2 - a.2) ^ 2) = dotd p a a b := by
  unfold footParam dotd
  rw [div_mul_cancel₀ _ (side_pos h).ne']
  ring

/-- The foot of the normal is the nearest point of the line. -/
theorem foot_le {a b : K × K} (h : a ≠ b) (p : K × K) (s : K) :
    sqDist p (lerp a b (footParam a b p)) ≤ sqDist p (lerp a b s) := by
  have e := footParam_mul h p
  set t := footParam a b p
  unfold sqDist lerp dotd at *
  have : (p.1 - (a.1 + s * (b.1 - a.1))) ^ 2 + (p.2 - (a.2 + s * (b.2 - a.2))) ^ 2 -
      ((p.1 - (a.1 + t * (b.1 - a.1))) ^ 2 + (p.2 - (a.2 + t * (b.2 - a.2))) ^ 2) =
      (s - t) ^ 2 * ((b.1 - a.1) ^ 2 + (b.2 - a.2) ^ 2) := by
    linear_combination 2 * (s - t) * e
  have h2 : 0 ≤ (s - t) ^ 2 * ((b.1 - a.1) ^ 2 + (b.2 - a.2) ^ 2) := mul_nonneg (sq_nonneg _) (side_pos h).le
  linarith

theorem sideDist_near {a b : K × K} (h : a ≠ b) {p : K × K} (ht : 0 ≤ footParam a b p ∧ footParam a b p ≤ 1) :
    sideDist a b p = some (sqDist p (lerp a b (footParam a b p))) := by
  unfold sideDist
  rw [if_neg (side_pos h).ne']
  simp only
  rw [if_pos ht]
  unfold sqDist lerp
  congr 1
  ring

theorem sideDist_vertex {a b : K × K} (h : a ≠ b) {p : K × K} (ht : footParam a b p < 0) :
    sideDist a b p = some (sqDist p a) := by
  unfold sideDist
  rw [if_neg (side_pos h).ne']
  simp only
  rw [if_neg (by intro hc; linarith [hc.1]), if_pos ht]
  unfold sqDist
  congr 1
  ring

theorem sideDist_far {a b : K × K} (h : a ≠ b) {p : K × K} (ht : 1 < footParam a b p) : sideDist a b p = none := by
  unfold sideDist
  rw [if_neg (side_pos h).ne']
  simp only
  rw [if_neg (by intro hc; linarith [hc.2]), if_neg (by linarith)]

/-- Lower bound of the distance to a side whose foot is not beyond its end. -/
theorem sideDist_le {a b : K × K} (h : a ≠ b) {p : K × K} (ht : footParam a b p ≤ 1) {s : K} (hs : 0 ≤ s) :
    ∃ d, sideDist a b p = some d ∧ d ≤ sqDist p (lerp a b s) := by
  rcases lt_or_ge (footParam a b p) 0 with h0 | h0
  · refine ⟨_, sideDist_vertex h h0, ?_⟩
    have e := footParam_mul h p
    have hd : dotd p a a b < 0 := by rw [← e]; exact mul_neg_of_neg_of_pos h0 (side_pos h)
    have : sqDist p (lerp a b s) = sqDist p a - 2 * s * dotd p a a b + s ^ 2 * ((b.1 - a.1) ^ 2 + (b.2 - a.2) ^ 2) := by
      unfold sqDist lerp dotd; ring
    rw [this]
    have h1 : s * dotd p a a b ≤ 0 := mul_nonpos_of_nonneg_of_nonpos hs hd.le
    have h2 : 0 ≤ s ^ 2 * ((b.1 - a.1) ^ 2 + (b.2 - a.2) ^ 2) := mul_nonneg (sq_nonneg _) (side_pos h).le
    linarith
  · exact ⟨_, sideDist_near h ⟨h0, ht⟩, foot_le h p s⟩

/-- If the foot is beyond the end, the end is nearest. -/
theorem end_le {a b : K × K} (h : a ≠ b) {p : K × K} (ht : 1 < footParam a b p) {s : K} (hs : s ≤ 1) :
    sqDist p b ≤ sqDist p (lerp a b s) ∧ sqDist p b < sqDist p a := by
  have e := footParam_mul h p
  have hN := side_pos h
  have hd : (b.1 - a.1) ^ 2 + (b.2 - a.2) ^ 2 < dotd p a a b := by
    rw [← e]; nlinarith
  have e1 : ∀ s, sqDist p (lerp a b s) = sqDist p a - 2 * s * dotd p a a b + s ^ 2 * ((b.1 - a.1) ^ 2 + (b.2 - a.2) ^ 2) := by
    intro s; unfold sqDist lerp dotd; ring
  have e2 : sqDist p b = sqDist p a - 2 * dotd p a a b + ((b.1 - a.1) ^ 2 + (b.2 - a.2) ^ 2) := by
    unfold sqDist dotd; ring
  constructor
  · rw [e1, e2]
    have h1 : (1 - s) * ((b.1 - a.1) ^ 2 + (b.2 - a.2) ^ 2) ≤ (1 - s) * dotd p a a b :=
      mul_le_mul_of_nonneg_left hd.le (by linarith)
    nlinarith [mul_nonneg (sq_nonneg (1 - s)) hN.le]
  · rw [e2]; linarith

/-! ## The loop -/

theorem nearest_spec (w : List (K × K)) (p : K × K) (n : ℕ) :
    let s := (List.range n).foldl (nearStep w p) ⟨none, 0, false⟩
    (s.mindst = none ∧ ∀ i < n, sideDist (pt w i) (pt w (i + 1)) p = none) ∨
    ∃ d, s.mindst = some d ∧ s.j < n ∧ sideDist (pt w s.j) (pt w (s.j + 1)) p = some d ∧
      s.snear = decide (0 ≤ footParam (pt w s.j) (pt w (s.j + 1)) p ∧ footParam (pt w s.j) (pt w (s.j + 1)) p ≤ 1) ∧
      ∀ i < n, ∀ d', sideDist (pt w i) (pt w (i + 1)) p = some d' → d ≤ d' := by
  induction n with
  | zero => left; exact ⟨rfl, by intro i hi; omega⟩
  | succ n ih =>
    simp only [List.range_succ, List.foldl_append, List.foldl_cons, List.foldl_nil] at ih ⊢
    set s := (List.range n).foldl (nearStep w p) ⟨none, 0, false⟩ with hs
    unfold nearStep
    cases hd : sideDist (pt w n) (pt w (n + 1)) p with
    | none =>
      simp only
      rcases ih with ⟨h1, h2⟩ | ⟨d, h1, h2, h3, h4, h5⟩
      · left
        refine ⟨h1, fun i hi => ?_⟩
        rcases Nat.lt_succ_iff_lt_or_eq.1 hi with h | rfl
        · exact h2 i h
        · exact hd
      · right
        refine ⟨d, h1, by omega, h3, h4, fun i hi d' h' => ?_⟩
        rcases Nat.lt_succ_iff_lt_or_eq.1 hi with h | rfl
        · exact h5 i h d' h'
        · rw [hd] at h'; cases h'
    | some d0 =>
      simp only
      right
      rcases ih with ⟨h1, h2⟩ | ⟨d, h1, h2, h3, h4, h5⟩
      · rw [h1]
        refine ⟨d0, rfl, by simp, hd, rfl, fun i hi d' h' => ?_⟩
        rcases Nat.lt_succ_iff_lt_or_eq.1 hi with h | rfl
        · rw [h2 i h] at h'; cases h'
        · rw [hd] at h'; cases h'; exact le_refl _
      · rw [h1]
        simp only
        split
        · rename_i hlt
          refine ⟨d0, rfl, by simp, hd, rfl, fun i hi d' h' => ?_⟩
          rcases Nat.lt_succ_iff_lt_or_eq.1 hi with h | rfl
          · exact hlt.le.trans (h5 i h d' h')
          · rw [hd] at h'; cases h'; exact le_refl _
        · rename_i hlt
          refine ⟨d, h1, by omega, h3, h4, fun i hi d' h' => ?_⟩
          rcases Nat.lt_succ_iff_lt_or_eq.1 hi with h | rfl
          · exact h5 i h d' h'
          · rw [hd] at h'; cases h'; exact not_lt.1 hlt

/-! ## Convex position -/

/-- Convexity in terms of the periodic sequence of vertices. -/
structure ConvexSeq (f : ℕ → K × K) (n : ℕ) : Prop where
  hn : 3 ≤ n
  per : ∀ i, f (i + n) = f i
  ge : ∀ i k, 0 ≤ leftOf (f i) (f (i + 1)) (f k)
  str : ∀ i, 0 < leftOf (f i) (f (i + 1)) (f (i + 2))

namespace ConvexSeq

variable {f : ℕ → K × K} {n : ℕ}

theorem ne (h : ConvexSeq f n) (i : ℕ) : f i ≠ f (i + 1) := by
  intro e
  have := h.str i
  rw [← e] at this
  unfold leftOf at this
  simp at this

theorem mod_eq (h : ConvexSeq f n) (i : ℕ) : f (i % n) = f i := by
  have key : ∀ k j, f (j + k * n) = f j := by
    intro k
    induction k with
    | zero => simp
    | succ k ih => intro j; rw [Nat.succ_mul, ← Nat.add_assoc, h.per, ih]
  conv_rhs => rw [← Nat.mod_add_div' i n]
  exact (key _ _).symm

theorem mod_succ (h : ConvexSeq f n) (i : ℕ) : f (i % n + 1) = f (i + 1) := by
  rw [← h.mod_eq (i % n + 1), ← h.mod_eq (i + 1), Nat.mod_add_mod]

/-- Some side is not far, and its distance bounds the distance to any given boundary point. -/
theorem exists_le (h : ConvexSeq f n) (p : K × K) (i : ℕ) {s : K} (hs0 : 0 ≤ s) (hs1 : s ≤ 1) :
    ∃ k < n, ∃ d, sideDist (f k) (f (k + 1)) p = some d ∧ d ≤ sqDist p (lerp (f i) (f (i + 1)) s) := by
  rcases le_or_gt (footParam (f i) (f (i + 1)) p) 1 with ht | ht
  · obtain ⟨d, h1, h2⟩ := sideDist_le (h.ne i) ht hs0
    refine ⟨i % n, Nat.mod_lt _ (by have := h.hn; omega), d, ?_, h2⟩
    rw [h.mod_eq, h.mod_succ]; exact h1
  · have h1 := (end_le (h.ne i) ht hs1).1
    obtain ⟨k, hk, hmin⟩ := Finset.exists_min_image (Finset.range n) (fun k => sqDist p (f k))
      ⟨0, Finset.mem_range.2 (by have := h.hn; omega)⟩
    have hmin' : ∀ m, sqDist p (f k) ≤ sqDist p (f m) := by
      intro m
      have := hmin (m % n) (Finset.mem_range.2 (Nat.mod_lt _ (by have := h.hn; omega)))
      rwa [h.mod_eq] at this
    have htk : footParam (f k) (f (k + 1)) p ≤ 1 := by
      by_contra hc
      have := (end_le (h.ne k) (not_le.1 hc) (le_refl 1)).2
      exact absurd (hmin' (k + 1)) (not_le.2 this)
    obtain ⟨d, h2, h3⟩ := sideDist_le (h.ne k) htk (le_refl 0)
    refine ⟨k, Finset.mem_range.1 hk, d, h2, ?_⟩
    have : lerp (f k) (f (k + 1)) 0 = f k := by unfold lerp; simp
    rw [this] at h3
    exact h3.trans ((hmin' (i + 1)).trans h1)

/-- A point of the polygon on the line of a side is on the side. -/
theorem on_side (h : ConvexSeq f n) (i : ℕ) {r : K × K} (hin : ∀ k, 0 ≤ leftOf (f k) (f (k + 1)) r)
    (h0 : leftOf (f i) (f (i + 1)) r = 0) : ∃ s, 0 ≤ s ∧ s ≤ 1 ∧ r = lerp (f i) (f (i + 1)) s := by
  have hN := side_pos (h.ne i)
  set a := f i
  set b := f (i + 1)
  set s := footParam a b r with hs
  have e := footParam_mul (h.ne i) r
  have hr : r = lerp a b s := by
    unfold lerp
    unfold leftOf at h0
    unfold dotd at e
    apply Prod.ext
    · have : (r.1 - (a.1 + s * (b.1 - a.1))) * ((b.1 - a.1) ^ 2 + (b.2 - a.2) ^ 2) = 0 := by
        linear_combination -(b.1 - a.1) * e - (b.2 - a.2) * h0
      rcases mul_eq_zero.1 this with h | h
      · simp only; linarith
      · exact absurd h hN.ne'
    · have : (r.2 - (a.2 + s * (b.2 - a.2))) * ((b.1 - a.1) ^ 2 + (b.2 - a.2) ^ 2) = 0 := by
        linear_combination -(b.2 - a.2) * e + (b.1 - a.1) * h0
      rcases mul_eq_zero.1 this with h | h
      · simp only; linarith
      · exact absurd h hN.ne'
  refine ⟨s, ?_, ?_, hr⟩
  · -- otherwise to the right of the side before
    by_contra hc
    have hc : s < 0 := not_le.1 hc
    have hn := h.hn
    have h1 := hin (i + n - 1)
    have h2 := h.str (i + n - 1)
    rw [show i + n - 1 + 1 = i + n by omega, h.per] at h1
    rw [show i + n - 1 + 1 = i + n by omega, show i + n - 1 + 2 = i + 1 + n by omega, h.per, h.per] at h2
    rw [hr] at h1
    have : leftOf (f (i + n - 1)) a (lerp a b s) = s * leftOf (f (i + n - 1)) a b := by
      unfold leftOf lerp; ring
    rw [this] at h1
    have := mul_neg_of_neg_of_pos hc h2
    linarith
  · by_contra hc
    have hc : 1 < s := not_le.1 hc
    have h1 := hin (i + 1)
    have h2 := h.str i
    rw [hr] at h1
    have : leftOf b (f (i + 1 + 1)) (lerp a b s) = -((s - 1) * leftOf a b (f (i + 2))) := by
      unfold leftOf lerp; ring
    rw [this] at h1
    have := mul_pos (by linarith : 0 < s - 1) h2
    linarith

/-- Inside the polygon the nearest boundary point is never a vertex with the foot before the side. -/
theorem inside_near (h : ConvexSeq f n) {p : K × K} (hin : ∀ k, 0 ≤ leftOf (f k) (f (k + 1)) p) {i : ℕ}
    (hmin : ∀ k s, 0 ≤ s → s ≤ 1 → sqDist p (f (i + 1)) ≤ sqDist p (lerp (f k) (f (k + 1)) s)) :
    ¬dotd p (f (i + 1)) (f (i + 1)) (f (i + 2)) < 0 := by
  intro hd
  have hA := hin (i + 1)
  have hB := hin i
  have hc := h.str i
  set a := f i with ha
  set b := f (i + 1) with hb
  rw [show i + 1 + 1 = i + 2 by omega] at hA
  set c := f (i + 2)
  have hN1 := side_pos (h.ne i)
  have hN2 := side_pos (h.ne (i + 1))
  rw [← ha, ← hb] at hN1
  rw [show i + 1 + 1 = i + 2 by omega] at hN2
  -- u = p - b, e1 = b - a, e2 = c - b
  unfold leftOf at hA hB hc
  unfold dotd at hd
  set D := (b.1 - a.1) * (c.1 - b.1) + (b.2 - a.2) * (c.2 - b.2) with hD
  set A := (c.1 - b.1) * (p.2 - b.2) - (c.2 - b.2) * (p.1 - b.1) with hAd
  set B := (b.1 - a.1) * (p.2 - a.2) - (b.2 - a.2) * (p.1 - a.1) with hBd
  set C := (b.1 - a.1) * (c.2 - a.2) - (b.2 - a.2) * (c.1 - a.1) with hCd
  have i1 : C * ((p.1 - b.1) * (c.1 - b.1) + (p.2 - b.2) * (c.2 - b.2)) = -A * D + B * ((c.1 - b.1) ^ 2 + (c.2 - b.2) ^ 2) := by
    rw [hCd, hAd, hBd, hD]; ring
  have i2 : C * ((p.1 - b.1) * (b.1 - a.1) + (p.2 - b.2) * (b.2 - a.2)) = -A * ((b.1 - a.1) ^ 2 + (b.2 - a.2) ^ 2) + B * D := by
    rw [hCd, hAd, hBd, hD]; ring
  have i3 : D ^ 2 ≤ ((b.1 - a.1) ^ 2 + (b.2 - a.2) ^ 2) * ((c.1 - b.1) ^ 2 + (c.2 - b.2) ^ 2) := by
    have : ((b.1 - a.1) ^ 2 + (b.2 - a.2) ^ 2) * ((c.1 - b.1) ^ 2 + (c.2 - b.2) ^ 2) - D ^ 2 =
        ((b.1 - a.1) * (c.2 - b.2) - (b.2 - a.2) * (c.1 - b.1)) ^ 2 := by rw [hD]; ring
    have h2 := sq_nonneg ((b.1 - a.1) * (c.2 - b.2) - (b.2 - a.2) * (c.1 - b.1))
    linarith
  set N1 := (b.1 - a.1) ^ 2 + (b.2 - a.2) ^ 2
  set N2 := (c.1 - b.1) ^ 2 + (c.2 - b.2) ^ 2
  have j1 : B * N2 < A * D := by
    have := mul_neg_of_pos_of_neg hc hd
    rw [i1] at this; linarith
  have j2 : B * D < A * N1 := acute hA hB hN2 i3 j1
  have j3 : (p.1 - b.1) * (b.1 - a.1) + (p.2 - b.2) * (b.2 - a.2) < 0 := by
    by_contra hcon
    have := mul_nonneg hc.le (not_lt.1 hcon)
    rw [i2] at this; linarith
  obtain ⟨s, hs0, hs1, hs⟩ := closer (u1 := p.1 - b.1) (u2 := p.2 - b.2) (w1 := -(b.1 - a.1)) (w2 := -(b.2 - a.2)) (by linarith)
  have := hmin i (1 - s) (by linarith) (by linarith)
  have e : sqDist p (lerp (f i) (f (i + 1)) (1 - s)) = (p.1 - b.1 - s * -(b.1 - a.1)) ^ 2 + (p.2 - b.2 - s * -(b.2 - a.2)) ^ 2 := by
    rw [← ha, ← hb]; unfold sqDist lerp; ring
  rw [e] at this
  unfold sqDist at this
  linarith

/-- Outside the polygon, a side that carries the nearest boundary point has the point on its right. -/
theorem outside_right (h : ConvexSeq f n) {p : K × K} (hout : ∃ k, leftOf (f k) (f (k + 1)) p < 0) {j : ℕ} {t : K}
    (ht0 : 0 ≤ t) (ht1 : t ≤ 1) (hperp : dotd p (lerp (f j) (f (j + 1)) t) (f j) (f (j + 1)) = 0)
    (hmin : ∀ k s, 0 ≤ s → s ≤ 1 → sqDist p (lerp (f j) (f (j + 1)) t) ≤ sqDist p (lerp (f k) (f (k + 1)) s)) :
    leftOf (f j) (f (j + 1)) p < 0 := by
  by_contra hcon
  have hj : 0 ≤ leftOf (f j) (f (j + 1)) p := not_lt.1 hcon
  set q := lerp (f j) (f (j + 1)) t with hq
  have hqin : ∀ k, 0 ≤ leftOf (f k) (f (k + 1)) q := by
    intro k
    rw [hq, leftOf_lerp]
    exact add_nonneg (mul_nonneg (by linarith) (h.ge _ _)) (mul_nonneg ht0 (h.ge _ _))
  -- violated sides and their crossing parameters
  have hnp : 0 < n := by have := h.hn; omega
  let V := (Finset.range n).filter fun k => leftOf (f k) (f (k + 1)) p < 0
  have hV : V.Nonempty := by
    obtain ⟨k, hk⟩ := hout
    refine ⟨k % n, Finset.mem_filter.2 ⟨Finset.mem_range.2 (Nat.mod_lt _ hnp), ?_⟩⟩
    rw [h.mod_eq, h.mod_succ]; exact hk
  obtain ⟨i, hiV, hi⟩ := Finset.exists_min_image V
    (fun k => leftOf (f k) (f (k + 1)) q / (leftOf (f k) (f (k + 1)) q - leftOf (f k) (f (k + 1)) p)) hV
  have hneg : leftOf (f i) (f (i + 1)) p < 0 := (Finset.mem_filter.1 hiV).2
  set s := leftOf (f i) (f (i + 1)) q / (leftOf (f i) (f (i + 1)) q - leftOf (f i) (f (i + 1)) p) with hs
  have hden : 0 < leftOf (f i) (f (i + 1)) q - leftOf (f i) (f (i + 1)) p := by linarith [hqin i]
  have hs0 : 0 ≤ s := div_nonneg (hqin i) hden.le
  have hs1 : s < 1 := by rw [hs, div_lt_one hden]; linarith
  set r := lerp q p s with hr
  have hrin : ∀ k, 0 ≤ leftOf (f k) (f (k + 1)) r := by
    intro k
    rw [hr, leftOf_lerp]
    rcases lt_or_ge (leftOf (f k) (f (k + 1)) p) 0 with hk | hk
    · have hk' := hi (k % n) (Finset.mem_filter.2 ⟨Finset.mem_range.2 (Nat.mod_lt _ hnp), by
        rw [h.mod_eq, h.mod_succ]; exact hk⟩)
      simp only [h.mod_eq, h.mod_succ] at hk'
      have hdk : 0 < leftOf (f k) (f (k + 1)) q - leftOf (f k) (f (k + 1)) p := by linarith [hqin k]
      have := mul_le_mul_of_nonneg_right hk' hdk.le
      rw [div_mul_cancel₀ _ hdk.ne'] at this
      linarith
    · exact add_nonneg (mul_nonneg (by linarith) (hqin k)) (mul_nonneg hs0 hk)
  have hri : leftOf (f i) (f (i + 1)) r = 0 := by
    rw [hr, leftOf_lerp]
    have := div_mul_cancel₀ (leftOf (f i) (f (i + 1)) q) hden.ne'
    rw [← hs] at this
    linarith
  obtain ⟨τ, hτ0, hτ1, hτ⟩ := h.on_side i hrin hri
  have hm := hmin i τ hτ0 hτ1
  rw [← hτ] at hm
  have hpr : sqDist p r = (1 - s) ^ 2 * sqDist p q := by rw [hr]; unfold sqDist lerp; ring
  have hpq : 0 < sqDist p q := by
    have hne : q ≠ p := by
      rintro hqp
      have := hqin i
      rw [hqp] at this; linarith
    have := side_pos hne
    unfold sqDist; linarith
  have hs_eq : s = 0 := by
    rcases hs0.lt_or_eq with hpos | h0
    · exfalso
      rw [hpr] at hm
      have h1 : (1 - s) ^ 2 < 1 := by nlinarith
      have := mul_lt_mul_of_pos_right h1 hpq
      linarith
    · exact h0.symm
  have hrq : r = q := by rw [hr, hs_eq]; unfold lerp; simp
  rw [hrq] at hri hτ
  -- the foot lies on the violated side i
  have hends : ∀ σ : K, 0 ≤ σ → σ ≤ 1 → (p.1 - q.1) * (σ - τ) * ((f (i + 1)).1 - (f i).1) +
      (p.2 - q.2) * (σ - τ) * ((f (i + 1)).2 - (f i).2) ≤ 0 := by
    intro σ h0 h1
    by_contra hc
    obtain ⟨x, hx0, hx1, hx⟩ := closer (u1 := p.1 - q.1) (u2 := p.2 - q.2)
      (w1 := (σ - τ) * ((f (i + 1)).1 - (f i).1)) (w2 := (σ - τ) * ((f (i + 1)).2 - (f i).2)) (by linarith [not_le.1 hc])
    have hb0 : 0 ≤ τ + x * (σ - τ) := by
      have : τ + x * (σ - τ) = (1 - x) * τ + x * σ := by ring
      rw [this]; exact add_nonneg (mul_nonneg (by linarith) hτ0) (mul_nonneg hx0.le h0)
    have hb1 : τ + x * (σ - τ) ≤ 1 := by
      have : τ + x * (σ - τ) = (1 - x) * τ + x * σ := by ring
      rw [this]
      nlinarith [mul_nonneg (by linarith : 0 ≤ 1 - x) (by linarith : 0 ≤ 1 - τ), mul_nonneg hx0.le (by linarith : 0 ≤ 1 - σ)]
    have := hmin i (τ + x * (σ - τ)) hb0 hb1
    have e : lerp (f i) (f (i + 1)) (τ + x * (σ - τ)) = (q.1 + x * ((σ - τ) * ((f (i + 1)).1 - (f i).1)),
        q.2 + x * ((σ - τ) * ((f (i + 1)).2 - (f i).2))) := by
      rw [hτ]; unfold lerp; apply Prod.ext <;> (simp only; ring)
    rw [e] at this
    unfold sqDist at this
    simp only at this
    have e2 : (p.1 - (q.1 + x * ((σ - τ) * ((f (i + 1)).1 - (f i).1)))) = p.1 - q.1 - x * ((σ - τ) * ((f (i + 1)).1 - (f i).1)) := by ring
    have e3 : (p.2 - (q.2 + x * ((σ - τ) * ((f (i + 1)).2 - (f i).2)))) = p.2 - q.2 - x * ((σ - τ) * ((f (i + 1)).2 - (f i).2)) := by ring
    rw [e2, e3] at this
    linarith
  -- coordinates
  set e1 := (f (j + 1)).1 - (f j).1 with he1
  set e2 := (f (j + 1)).2 - (f j).2 with he2
  set g1 := (f (i + 1)).1 - (f i).1 with hg1
  set g2 := (f (i + 1)).2 - (f i).2 with hg2
  set u1 := p.1 - q.1 with hu1
  set u2 := p.2 - q.2 with hu2
  have hperp' : u1 * e1 + u2 * e2 = 0 := by unfold dotd at hperp; exact hperp
  have hE : 0 < e1 ^ 2 + e2 ^ 2 := side_pos (h.ne j)
  have hqj : leftOf (f j) (f (j + 1)) q = 0 := by rw [hq]; unfold leftOf lerp; ring
  have hju : leftOf (f j) (f (j + 1)) p = e1 * u2 - e2 * u1 := by
    unfold leftOf at hqj ⊢; rw [hu1, hu2]; linear_combination hqj
  have hiu : leftOf (f i) (f (i + 1)) p = g1 * u2 - g2 * u1 := by
    unfold leftOf at hri ⊢; rw [hu1, hu2]; linear_combination hri
  have hL : 0 < e1 * u2 - e2 * u1 := by
    rw [hju] at hj
    rcases hj.lt_or_eq with hlt | heq
    · exact hlt
    · exfalso
      have a1 : u1 * (e1 ^ 2 + e2 ^ 2) = 0 := by linear_combination e1 * hperp' + e2 * heq
      have a2 : u2 * (e1 ^ 2 + e2 ^ 2) = 0 := by linear_combination e2 * hperp' - e1 * heq
      have b1 := (mul_eq_zero.1 a1).resolve_right hE.ne'
      have b2 := (mul_eq_zero.1 a2).resolve_right hE.ne'
      unfold sqDist at hpq
      rw [← hu1, ← hu2, b1, b2] at hpq
      simp at hpq
  -- both ends of side i are not to the right of side j
  have hcross : ∀ σ : K, 0 ≤ σ → σ ≤ 1 → 0 ≤ (σ - τ) * (e1 * g2 - e2 * g1) := by
    intro σ h0 h1
    have h2 : 0 ≤ leftOf (f j) (f (j + 1)) (lerp (f i) (f (i + 1)) σ) := by
      rw [leftOf_lerp]
      exact add_nonneg (mul_nonneg (by linarith) (h.ge _ _)) (mul_nonneg h0 (h.ge _ _))
    have h3 : leftOf (f j) (f (j + 1)) (lerp (f i) (f (i + 1)) τ) = 0 := by rw [← hτ]; exact hqj
    have : leftOf (f j) (f (j + 1)) (lerp (f i) (f (i + 1)) σ) = (σ - τ) * (e1 * g2 - e2 * g1) := by
      unfold leftOf lerp at h3 ⊢
      simp only at h3 ⊢
      rw [he1, he2, hg1, hg2]
      linear_combination h3
    rwa [this] at h2
  -- u is a positive multiple of the left normal of side j
  have hdot : ∀ σ : K, (u1 * (σ - τ) * g1 + u2 * (σ - τ) * g2) * (e1 ^ 2 + e2 ^ 2) =
      (e1 * u2 - e2 * u1) * ((σ - τ) * (e1 * g2 - e2 * g1)) := by
    intro σ
    linear_combination (σ - τ) * (e1 * g1 + e2 * g2) * hperp'
  have hz : ∀ σ : K, 0 ≤ σ → σ ≤ 1 → (σ - τ) * (e1 * g2 - e2 * g1) = 0 := by
    intro σ h0 h1
    have a1 := hends σ h0 h1
    have a2 := hcross σ h0 h1
    have a3 := hdot σ
    have a4 := mul_nonneg hL.le a2
    have a5 := mul_nonpos_of_nonpos_of_nonneg a1 hE.le
    have : (e1 * u2 - e2 * u1) * ((σ - τ) * (e1 * g2 - e2 * g1)) = 0 := by linarith
    exact (mul_eq_zero.1 this).resolve_left hL.ne'
  have hpar : e1 * g2 - e2 * g1 = 0 := by
    have a0 := hz 0 (le_refl 0) zero_le_one
    have a1 := hz 1 zero_le_one (le_refl 1)
    linarith
  -- all vertices lie on the common line
  rw [hiu] at hneg
  have hk := h.str j
  have hki := h.ge i (j + 2)
  have e5 : leftOf (f j) (f (j + 1)) (f (j + 2)) = e1 * ((f (j + 2)).2 - q.2) - e2 * ((f (j + 2)).1 - q.1) := by
    unfold leftOf at hqj ⊢; linear_combination hqj
  have e6 : leftOf (f i) (f (i + 1)) (f (j + 2)) = g1 * ((f (j + 2)).2 - q.2) - g2 * ((f (j + 2)).1 - q.1) := by
    unfold leftOf at hri ⊢; linear_combination hri
  rw [e5] at hk
  rw [e6] at hki
  have e7 : (g1 * ((f (j + 2)).2 - q.2) - g2 * ((f (j + 2)).1 - q.1)) * (e1 * u2 - e2 * u1) =
      (e1 * ((f (j + 2)).2 - q.2) - e2 * ((f (j + 2)).1 - q.1)) * (g1 * u2 - g2 * u1) := by
    linear_combination (-u1 * ((f (j + 2)).2 - q.2) + u2 * ((f (j + 2)).1 - q.1)) * (-hpar)
  have a1 := mul_nonneg hki hL.le
  have a2 := mul_neg_of_pos_of_neg hk hneg
  linarith

end ConvexSeq

end Acoular
