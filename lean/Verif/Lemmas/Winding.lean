import Verif.Lemmas.Polygon
import Mathlib.Algebra.BigOperators.Intervals
import Mathlib.Algebra.Order.BigOperators.Group.Finset

/-!
# Lemmas: winding numbers of polygons

The winding number does not change along a straight line that does not meet the boundary, and grows by one where the
line passes a side from its right to its left.
-/

set_option linter.unusedSectionVars false

namespace Acoular

open Spec

variable {K : Type*} [Field K] [LinearOrder K] [IsStrictOrderedRing K]

/-- Height of the line through `a` and `b` at `x`. -/
def yl (a b : K × K) (x : K) : K := a.2 + (x - a.1) / (b.1 - a.1) * (b.2 - a.2)

theorem leftOf_yl {a b : K × K} (h : a.1 < b.1) (p : K × K) :
    leftOf a b p = (b.1 - a.1) * (p.2 - yl a b p.1) := by
  have : b.1 - a.1 ≠ 0 := by linarith [sub_pos.2 h] |> fun h : 0 < b.1 - a.1 => h.ne'
  unfold leftOf yl
  field_simp
  ring

theorem below_iff {a b : K × K} (h : a.1 < b.1) (p : K × K) : leftOf a b p < 0 ↔ p.2 < yl a b p.1 := by
  rw [leftOf_yl h]
  have h' : 0 < b.1 - a.1 := by linarith
  constructor
  · intro hh
    by_contra hc
    exact absurd hh (not_lt.2 (mul_nonneg h'.le (by linarith)))
  · intro hh
    exact mul_neg_of_pos_of_neg h' (by linarith)

theorem above_iff {a b : K × K} (h : a.1 < b.1) (p : K × K) : 0 < leftOf a b p ↔ yl a b p.1 < p.2 := by
  rw [leftOf_yl h]
  have h' : 0 < b.1 - a.1 := by linarith
  constructor
  · intro hh
    by_contra hc
    exact absurd hh (not_lt.2 (mul_nonpos_of_nonneg_of_nonpos h'.le (by linarith)))
  · intro hh
    exact mul_pos h' (by linarith)

theorem yl_left (a b : K × K) : yl a b a.1 = a.2 := by unfold yl; simp

theorem yl_right {a b : K × K} (h : a.1 < b.1) : yl a b b.1 = b.2 := by
  have : b.1 - a.1 ≠ 0 := by have : 0 < b.1 - a.1 := by linarith
                             exact this.ne'
  unfold yl; rw [div_self this]; ring

theorem onSide_yl {a b : K × K} (h : a.1 < b.1) {x : K} (h1 : a.1 ≤ x) (h2 : x ≤ b.1) : OnSide a b (x, yl a b x) := by
  have h' : 0 < b.1 - a.1 := by linarith
  refine ⟨(x - a.1) / (b.1 - a.1), div_nonneg (by linarith) h'.le, (div_le_one h').2 (by linarith), ?_⟩
  rw [div_mul_cancel₀ _ h'.ne']
  unfold yl
  ext <;> simp

theorem onSide_swap {a b q : K × K} (h : OnSide a b q) : OnSide b a q := by
  obtain ⟨s, h0, h1, rfl⟩ := h
  exact ⟨1 - s, by linarith, by linarith, by ext <;> simp <;> ring⟩

theorem onSide_start (a b : K × K) : OnSide a b a := ⟨0, le_refl _, zero_le_one, by ext <;> simp⟩

theorem onSide_end (a b : K × K) : OnSide a b b := ⟨1, zero_le_one, le_refl _, by ext <;> simp⟩

private theorem affine_zero {α β x1 x2 : K} (hx : x1 ≤ x2) (h1 : α + β * x1 ≤ 0) (h2 : 0 ≤ α + β * x2) :
    ∃ x, x1 ≤ x ∧ x ≤ x2 ∧ α + β * x = 0 := by
  rcases eq_or_lt_of_le h1 with h | h
  · exact ⟨x1, le_refl _, hx, h⟩
  · have hb : 0 < β := by
      by_contra hc
      nlinarith [mul_nonneg (neg_nonneg.2 (not_lt.1 hc)) (sub_nonneg.2 hx)]
    refine ⟨-α / β, ?_, ?_, ?_⟩
    · rw [le_div_iff₀ hb]; linarith
    · rw [div_le_iff₀ hb]; linarith
    · field_simp; ring

private theorem affine_yl (a b : K × K) : ∃ α β, ∀ x, yl a b x = α + β * x :=
  ⟨a.2 - a.1 / (b.1 - a.1) * (b.2 - a.2), (b.2 - a.2) / (b.1 - a.1), fun x => by unfold yl; ring⟩

/-- Two lines that do not meet keep their order. -/
theorem order_kept {a b p p' : K × K} (hab : a.1 < b.1) (hp : p.1 < p'.1)
    (hno : ∀ q, OnSide a b q → OnSide p p' q → False) {x1 x2 : K}
    (ha1 : a.1 ≤ x1) (ha2 : a.1 ≤ x2) (hb1 : x1 ≤ b.1) (hb2 : x2 ≤ b.1) (hp1 : p.1 ≤ x1) (hp2 : p.1 ≤ x2)
    (hq1 : x1 ≤ p'.1) (hq2 : x2 ≤ p'.1) : yl p p' x1 < yl a b x1 → yl p p' x2 < yl a b x2 := by
  intro h
  by_contra hc
  obtain ⟨α, β, e1⟩ := affine_yl a b
  obtain ⟨γ, δ, e2⟩ := affine_yl p p'
  have hz : ∃ x, (a.1 ≤ x ∧ x ≤ b.1 ∧ p.1 ≤ x ∧ x ≤ p'.1) ∧ yl a b x = yl p p' x := by
    rcases le_total x1 x2 with hx | hx
    · obtain ⟨x, h1, h2, h3⟩ := affine_zero (α := γ - α) (β := δ - β) hx (by rw [e1, e2] at h; linarith)
        (by rw [e1, e2] at hc; linarith)
      exact ⟨x, ⟨by linarith, by linarith, by linarith, by linarith⟩, by rw [e1, e2]; linarith⟩
    · obtain ⟨x, h1, h2, h3⟩ := affine_zero (α := α - γ) (β := β - δ) hx (by rw [e1, e2] at hc; linarith)
        (by rw [e1, e2] at h; linarith)
      exact ⟨x, ⟨by linarith, by linarith, by linarith, by linarith⟩, by rw [e1, e2]; linarith⟩
  obtain ⟨x, ⟨h1, h2, h3, h4⟩, e⟩ := hz
  refine hno (x, yl a b x) (onSide_yl hab h1 h2) ?_
  rw [e]
  exact onSide_yl hp h3 h4

/-- Whether `u` lies above the line from `p` to `p'`. -/
def overSeg (p p' u : K × K) : ℤ := if p.1 < u.1 ∧ u.1 ≤ p'.1 ∧ 0 < leftOf p p' u then 1 else 0

theorem passes_of_lt {a b : K × K} (h : a.1 < b.1) (p : K × K) :
    passesAbove a b p = if a.1 ≤ p.1 ∧ p.1 < b.1 ∧ p.2 < yl a b p.1 then -1 else 0 := by
  unfold passesAbove
  simp only [below_iff h]
  congr 1
  rw [if_neg]
  rintro ⟨h1, h2, -⟩
  linarith

theorem passes_swap (a b p : K × K) : passesAbove b a p = -passesAbove a b p := by
  have e : leftOf b a p = -leftOf a b p := by unfold leftOf; ring
  unfold passesAbove
  rw [e]
  by_cases h1 : a.1 ≤ p.1 ∧ p.1 < b.1 ∧ leftOf a b p < 0
  · rw [if_pos h1, if_neg (by rintro ⟨h, h', -⟩; linarith [h1.1, h1.2.1]), if_pos ⟨h1.1, h1.2.1, by linarith [h1.2.2]⟩]
    rfl
  · rw [if_neg h1]
    by_cases h2 : b.1 ≤ p.1 ∧ p.1 < a.1 ∧ 0 < leftOf a b p
    · rw [if_pos h2, if_pos ⟨h2.1, h2.2.1, by linarith [h2.2.2]⟩]
    · rw [if_neg h2, if_neg (by rintro ⟨h3, h4, h5⟩; exact h2 ⟨h3, h4, by linarith⟩),
        if_neg (by rintro ⟨h3, h4, h5⟩; exact h1 ⟨h3, h4, by linarith⟩)]
      rfl

theorem passes_of_eq {a b : K × K} (h : a.1 = b.1) (p : K × K) : passesAbove a b p = 0 := by
  unfold passesAbove
  rw [if_neg (by rintro ⟨h1, h2, -⟩; linarith), if_neg (by rintro ⟨h1, h2, -⟩; linarith)]

private theorem noMeet_lt {a b p p' : K × K} (hab : a.1 < b.1) (hp : p.1 ≤ p'.1)
    (hno : ∀ q, OnSide a b q → OnSide p p' q → False) :
    passesAbove a b p' - passesAbove a b p = overSeg p p' b - overSeg p p' a := by
  rw [passes_of_lt hab, passes_of_lt hab]
  rcases hp.lt_or_eq with hp | hp
  · unfold overSeg
    simp only [above_iff hp]
    have key := fun x1 x2 => order_kept hab hp hno (x1 := x1) (x2 := x2)
    have ea := yl_left a b
    have eb := yl_right hab
    have ep := yl_left p p'
    have eq := yl_right hp
    -- order at the two ends of the common range
    have T : ∀ x1 x2, a.1 ≤ x1 → a.1 ≤ x2 → x1 ≤ b.1 → x2 ≤ b.1 → p.1 ≤ x1 → p.1 ≤ x2 → x1 ≤ p'.1 → x2 ≤ p'.1 →
        (yl p p' x1 < yl a b x1 ↔ yl p p' x2 < yl a b x2) := fun x1 x2 h1 h2 h3 h4 h5 h6 h7 h8 =>
      ⟨key x1 x2 h1 h2 h3 h4 h5 h6 h7 h8, key x2 x1 h2 h1 h4 h3 h6 h5 h8 h7⟩
    rcases le_or_gt a.1 p.1 with ha | ha
    · rcases le_or_gt b.1 p.1 with hb | hb
      · rw [if_neg (by rintro ⟨_, h, _⟩; linarith), if_neg (by rintro ⟨_, h, _⟩; linarith),
          if_neg (by rintro ⟨h, _, _⟩; linarith), if_neg (by rintro ⟨h, _, _⟩; linarith)]
      · rcases le_or_gt b.1 p'.1 with hb' | hb'
        · have := T p.1 b.1 ha hab.le hb.le (le_refl _) (le_refl _) hb.le hp.le hb'
          rw [ep, eb] at this
          rw [if_neg (by rintro ⟨_, h, _⟩; linarith), if_neg (by rintro ⟨h, _, _⟩; linarith : ¬(p.1 < a.1 ∧ _))]
          simp only [ha, hb, hb', true_and, this]
          split <;> simp
        · have := T p.1 p'.1 ha (by linarith) hb.le hb'.le (le_refl _) hp.le hp.le (le_refl _)
          rw [ep, eq] at this
          rw [if_neg (by rintro ⟨_, h, _⟩; linarith : ¬(p.1 < b.1 ∧ b.1 ≤ p'.1 ∧ _)),
            if_neg (by rintro ⟨h, _, _⟩; linarith : ¬(p.1 < a.1 ∧ _))]
          simp only [ha, hb, hb', this, (by linarith : a.1 ≤ p'.1), true_and]
          split <;> simp
    · rw [if_neg (by rintro ⟨h, _, _⟩; linarith : ¬(a.1 ≤ p.1 ∧ _))]
      rcases le_or_gt a.1 p'.1 with ha' | ha'
      · rcases le_or_gt b.1 p'.1 with hb' | hb'
        · have := T a.1 b.1 (le_refl _) hab.le hab.le (le_refl _) ha.le (by linarith) ha' hb'
          rw [ea, eb] at this
          rw [if_neg (by rintro ⟨_, h, _⟩; linarith)]
          simp only [ha, ha', hb', (by linarith : p.1 < b.1), this, true_and]
          split <;> simp
        · have := T a.1 p'.1 (le_refl _) ha' hab.le hb'.le ha.le hp.le ha' (le_refl _)
          rw [ea, eq] at this
          rw [if_neg (by rintro ⟨_, h, _⟩; linarith : ¬(p.1 < b.1 ∧ b.1 ≤ p'.1 ∧ _))]
          simp only [ha, ha', hb', this, true_and]
          split <;> simp
      · rw [if_neg (by rintro ⟨h, _, _⟩; linarith), if_neg (by rintro ⟨_, h, _⟩; linarith),
          if_neg (by rintro ⟨_, h, _⟩; linarith)]
  · -- vertical move
    have e : ∀ u, overSeg p p' u = 0 := fun u => by
      unfold overSeg; rw [if_neg]; rintro ⟨h1, h2, _⟩; linarith
    rw [e, e, sub_self, ← hp]
    by_cases hr : a.1 ≤ p.1 ∧ p.1 < b.1
    · have hno' : ¬((p.2 ≤ yl a b p.1 ∧ yl a b p.1 ≤ p'.2) ∨ (p'.2 ≤ yl a b p.1 ∧ yl a b p.1 ≤ p.2)) := by
        intro hh
        have mid : ∀ {y1 y2 y : K}, y1 ≤ y → y ≤ y2 → ∃ s : K, 0 ≤ s ∧ s ≤ 1 ∧ y = y1 + s * (y2 - y1) := by
          intro y1 y2 y h1 h2
          rcases eq_or_lt_of_le (h1.trans h2) with h | h
          · exact ⟨0, le_refl _, zero_le_one, by linarith⟩
          · have h' : 0 < y2 - y1 := by linarith
            exact ⟨(y - y1) / (y2 - y1), div_nonneg (by linarith) h'.le, (div_le_one h').2 (by linarith),
              by rw [div_mul_cancel₀ _ h'.ne']; ring⟩
        refine hno (p.1, yl a b p.1) (onSide_yl hab hr.1 hr.2.le) ?_
        rcases hh with ⟨h1, h2⟩ | ⟨h1, h2⟩
        · obtain ⟨s, s0, s1, es⟩ := mid h1 h2
          exact ⟨s, s0, s1, by ext <;> simp [← hp, ← es]⟩
        · obtain ⟨s, s0, s1, es⟩ := mid h1 h2
          refine onSide_swap ⟨s, s0, s1, by ext <;> simp [← hp, ← es]⟩
      have : p'.2 < yl a b p.1 ↔ p.2 < yl a b p.1 := by
        constructor
        · intro h
          by_contra hc
          exact hno' (.inr ⟨h.le, not_lt.1 hc⟩)
        · intro h
          by_contra hc
          exact hno' (.inl ⟨h.le, not_lt.1 hc⟩)
      simp only [this, sub_self]
    · rw [if_neg (fun h => hr ⟨h.1, h.2.1⟩), if_neg (fun h => hr ⟨h.1, h.2.1⟩)]; rfl

/-- A side that does not meet the line from `p` to `p'`. -/
theorem passes_noMeet {a b p p' : K × K} (hp : p.1 ≤ p'.1) (hno : ∀ q, OnSide a b q → OnSide p p' q → False) :
    passesAbove a b p' - passesAbove a b p = overSeg p p' b - overSeg p p' a := by
  rcases lt_trichotomy a.1 b.1 with h | h | h
  · exact noMeet_lt h hp hno
  · rw [passes_of_eq h, passes_of_eq h, sub_self, eq_comm, sub_eq_zero]
    rcases hp.lt_or_eq with hp | hp
    · unfold overSeg
      simp only [above_iff hp, ← h]
      by_cases hr : p.1 < a.1 ∧ a.1 ≤ p'.1
      · have hno' : ¬((a.2 ≤ yl p p' a.1 ∧ yl p p' a.1 ≤ b.2) ∨ (b.2 ≤ yl p p' a.1 ∧ yl p p' a.1 ≤ a.2)) := by
          intro hh
          have mid : ∀ {y1 y2 y : K}, y1 ≤ y → y ≤ y2 → ∃ s : K, 0 ≤ s ∧ s ≤ 1 ∧ y = y1 + s * (y2 - y1) := by
            intro y1 y2 y h1 h2
            rcases eq_or_lt_of_le (h1.trans h2) with h | h
            · exact ⟨0, le_refl _, zero_le_one, by linarith⟩
            · have h' : 0 < y2 - y1 := by linarith
              exact ⟨(y - y1) / (y2 - y1), div_nonneg (by linarith) h'.le, (div_le_one h').2 (by linarith),
                by rw [div_mul_cancel₀ _ h'.ne']; ring⟩
          refine hno (a.1, yl p p' a.1) ?_ (onSide_yl hp hr.1.le hr.2)
          rcases hh with ⟨h1, h2⟩ | ⟨h1, h2⟩
          · obtain ⟨s, s0, s1, es⟩ := mid h1 h2
            exact ⟨s, s0, s1, by ext <;> simp [← h, ← es]⟩
          · obtain ⟨s, s0, s1, es⟩ := mid h1 h2
            refine onSide_swap ⟨s, s0, s1, by ext <;> simp [← h, ← es]⟩
        have : yl p p' a.1 < b.2 ↔ yl p p' a.1 < a.2 := by
          constructor
          · intro h
            by_contra hc
            exact hno' (.inl ⟨not_lt.1 hc, h.le⟩)
          · intro h
            by_contra hc
            exact hno' (.inr ⟨not_lt.1 hc, h.le⟩)
        simp only [this]
      · rw [if_neg (fun h => hr ⟨h.1, h.2.1⟩), if_neg (fun h => hr ⟨h.1, h.2.1⟩)]
    · have e : ∀ u, overSeg p p' u = 0 := fun u => by
        unfold overSeg; rw [if_neg]; rintro ⟨h1, h2, _⟩; linarith
      rw [e, e]
  · have := noMeet_lt h hp (fun q h1 h2 => hno q (onSide_swap h1) h2)
    rw [passes_swap a b, passes_swap a b] at this
    linarith

/-- Vector product of the directions of two lines. -/
def crossd (a b p p' : K × K) : K := (b.1 - a.1) * (p'.2 - p.2) - (b.2 - a.2) * (p'.1 - p.1)

private theorem cross_pos {a b p p' : K × K} (hp : p.1 ≤ p'.1) {s τ : K} (hs0 : 0 < s) (hs1 : s < 1) (ht0 : 0 < τ)
    (ht1 : τ < 1) (e : lerp a b s = lerp p p' τ) (hX : 0 < crossd a b p p') :
    passesAbove a b p' - passesAbove a b p = overSeg p p' b - overSeg p p' a + 1 := by
  have e1 : a.1 + s * (b.1 - a.1) = p.1 + τ * (p'.1 - p.1) := congrArg Prod.fst e
  have e2 : a.2 + s * (b.2 - a.2) = p.2 + τ * (p'.2 - p.2) := congrArg Prod.snd e
  have l1 : leftOf a b p = -(τ * crossd a b p p') := by
    unfold leftOf crossd; linear_combination (b.1 - a.1) * e2 * (-1) + (b.2 - a.2) * e1
  have l2 : leftOf a b p' = (1 - τ) * crossd a b p p' := by
    unfold leftOf crossd; linear_combination (b.1 - a.1) * e2 * (-1) + (b.2 - a.2) * e1
  have l3 : leftOf p p' a = s * crossd a b p p' := by
    unfold leftOf crossd; linear_combination (p'.1 - p.1) * e2 + (p'.2 - p.2) * e1 * (-1)
  have l4 : leftOf p p' b = -((1 - s) * crossd a b p p') := by
    unfold leftOf crossd; linear_combination (p'.1 - p.1) * e2 + (p'.2 - p.2) * e1 * (-1)
  have h1 : leftOf a b p < 0 := by rw [l1]; linarith [mul_pos ht0 hX]
  have h2 : 0 < leftOf a b p' := by rw [l2]; exact mul_pos (by linarith) hX
  have h3 : 0 < leftOf p p' a := by rw [l3]; exact mul_pos hs0 hX
  have h4 : leftOf p p' b < 0 := by rw [l4]; linarith [mul_pos (sub_pos.2 hs1) hX]
  have ov : overSeg p p' b = 0 := by unfold overSeg; rw [if_neg]; rintro ⟨_, _, h⟩; linarith
  have q0 : 0 ≤ τ * (p'.1 - p.1) := mul_nonneg ht0.le (by linarith)
  have q1 : 0 ≤ (1 - τ) * (p'.1 - p.1) := mul_nonneg (by linarith) (by linarith)
  rw [ov]
  unfold overSeg passesAbove
  rcases lt_trichotomy a.1 b.1 with h | h | h
  · have r0 : 0 < s * (b.1 - a.1) := mul_pos hs0 (by linarith)
    have r1 : 0 < (1 - s) * (b.1 - a.1) := mul_pos (by linarith) (by linarith)
    have k1 : p.1 < b.1 := by nlinarith
    have k2 : a.1 ≤ p'.1 := by nlinarith
    rw [if_neg (by rintro ⟨_, _, h⟩; linarith), if_neg (by rintro ⟨_, _, h⟩; linarith)]
    rcases le_or_gt a.1 p.1 with ha | ha
    · rw [if_pos ⟨ha, k1, h1⟩, if_neg (by rintro ⟨h, _, _⟩; linarith)]; rfl
    · rw [if_neg (by rintro ⟨h, _, _⟩; linarith), if_neg (by rintro ⟨_, _, h⟩; linarith), if_pos ⟨ha, k2, h3⟩]; rfl
  · rw [if_neg (by rintro ⟨_, _, _⟩; linarith), if_neg (by rintro ⟨_, _, _⟩; linarith),
      if_neg (by rintro ⟨_, _, _⟩; linarith), if_neg (by rintro ⟨_, _, _⟩; linarith)]
    have hpp : p.1 < p'.1 := by
      rcases hp.lt_or_eq with hp | hp
      · exact hp
      · exfalso
        unfold crossd at hX
        rw [← h, ← hp] at hX
        simp at hX
    have r0 : 0 < τ * (p'.1 - p.1) := mul_pos ht0 (by linarith)
    have r1 : 0 < (1 - τ) * (p'.1 - p.1) := mul_pos (by linarith) (by linarith)
    rw [← h] at e1
    rw [if_pos ⟨by nlinarith, by nlinarith, h3⟩]; rfl
  · have r0 : 0 < s * (a.1 - b.1) := mul_pos hs0 (by linarith)
    have r1 : 0 < (1 - s) * (a.1 - b.1) := mul_pos (by linarith) (by linarith)
    have k1 : p.1 < a.1 := by nlinarith
    have k2 : b.1 ≤ p'.1 := by nlinarith
    rw [if_neg (by rintro ⟨_, _, h⟩; linarith), if_neg (by rintro ⟨_, _, h⟩; linarith : ¬(a.1 ≤ p.1 ∧ _)),
      if_neg (by rintro ⟨_, _, h⟩; linarith : ¬(b.1 ≤ p.1 ∧ _))]
    rcases le_or_gt a.1 p'.1 with ha | ha
    · rw [if_neg (by rintro ⟨_, h, _⟩; linarith), if_pos ⟨k1, ha, h3⟩]; rfl
    · rw [if_pos ⟨k2, ha, h2⟩, if_neg (by rintro ⟨_, h, _⟩; linarith)]; rfl

private theorem lerp_swap (a b : K × K) (s : K) : lerp b a (1 - s) = lerp a b s := by
  unfold lerp; ext <;> simp <;> ring

private theorem cross_neg {a b p p' : K × K} (hp : p.1 ≤ p'.1) {s τ : K} (hs0 : 0 < s) (hs1 : s < 1) (ht0 : 0 < τ)
    (ht1 : τ < 1) (e : lerp a b s = lerp p p' τ) (hX : crossd a b p p' < 0) :
    passesAbove a b p' - passesAbove a b p = overSeg p p' b - overSeg p p' a - 1 := by
  have := cross_pos (a := b) (b := a) (s := 1 - s) hp (by linarith) (by linarith) ht0 ht1
    (by rw [lerp_swap, e]) (by unfold crossd at *; linarith)
  rw [passes_swap a b, passes_swap a b] at this
  linarith

/-! ## Closed sequences of sides -/

/-- Winding number of the closed sequence of `n` sides. -/
def wind (f : ℕ → K × K) (n : ℕ) (p : K × K) : ℤ := ∑ i ∈ Finset.range n, passesAbove (f i) (f (i + 1)) p

/-- The winding number is the same at both ends of a line that does not meet the boundary. -/
theorem wind_const {f : ℕ → K × K} {n : ℕ} (hf : f n = f 0) {p p' : K × K}
    (hno : ∀ i < n, ∀ q, OnSide (f i) (f (i + 1)) q → OnSide p p' q → False) : wind f n p = wind f n p' := by
  have main : ∀ p p' : K × K, p.1 ≤ p'.1 → (∀ i < n, ∀ q, OnSide (f i) (f (i + 1)) q → OnSide p p' q → False) →
      wind f n p = wind f n p' := by
    intro p p' hp hno
    have : wind f n p' - wind f n p = 0 := by
      unfold wind
      rw [← Finset.sum_sub_distrib, Finset.sum_congr rfl fun i hi => passes_noMeet hp (hno i (Finset.mem_range.1 hi)),
        Finset.sum_range_sub (fun i => overSeg p p' (f i)), hf, sub_self]
    linarith
  rcases le_total p.1 p'.1 with h | h
  · exact main p p' h hno
  · exact (main p' p h fun i hi q h1 h2 => hno i hi q h1 (onSide_swap h2)).symm

/-- The winding number grows by one where the line passes a side from its right to its left. -/
theorem wind_cross {f : ℕ → K × K} {n : ℕ} (hf : f n = f 0) {p p' : K × K} {j : ℕ} (hj : j < n) {s τ : K}
    (hs0 : 0 < s) (hs1 : s < 1) (ht0 : 0 < τ) (ht1 : τ < 1) (e : lerp (f j) (f (j + 1)) s = lerp p p' τ)
    (hX : 0 < crossd (f j) (f (j + 1)) p p')
    (hno : ∀ i < n, i ≠ j → ∀ q, OnSide (f i) (f (i + 1)) q → OnSide p p' q → False) :
    wind f n p' = wind f n p + 1 := by
  have tele : ∀ p p' : K × K, ∀ δ : ℤ, (∀ i < n, passesAbove (f i) (f (i + 1)) p' - passesAbove (f i) (f (i + 1)) p =
      overSeg p p' (f (i + 1)) - overSeg p p' (f i) + if i = j then δ else 0) → wind f n p' - wind f n p = δ := by
    intro p p' δ h
    unfold wind
    rw [← Finset.sum_sub_distrib, Finset.sum_congr rfl fun i hi => h i (Finset.mem_range.1 hi),
      Finset.sum_add_distrib, Finset.sum_range_sub (fun i => overSeg p p' (f i)), hf, sub_self, zero_add,
      Finset.sum_ite_eq' , if_pos (Finset.mem_range.2 hj)]
  rcases le_total p.1 p'.1 with h | h
  · have := tele p p' 1 fun i hi => by
      split
      · rename_i h'
        subst h'
        exact cross_pos h hs0 hs1 ht0 ht1 e hX
      · rename_i h'
        rw [add_zero]
        exact passes_noMeet h (hno i hi h')
    linarith
  · have := tele p' p (-1) fun i hi => by
      split
      · rename_i h'
        subst h'
        rw [← sub_eq_add_neg]
        exact cross_neg (τ := 1 - τ) h hs0 hs1 (by linarith) (by linarith) (by rw [lerp_swap, e])
          (by unfold crossd at *; linarith)
      · rename_i h'
        rw [add_zero]
        exact passes_noMeet h fun q h1 h2 => hno i hi h' q h1 (onSide_swap h2)
    linarith

end Acoular
