import Verif.Lemmas.Jordan

/-!
# Lemmas: the point-in-polygon test on simple polygons
-/

set_option linter.unusedSectionVars false

namespace Acoular

open Spec

/-- Inner product. -/
def dt (u w : ℝ × ℝ) : ℝ := u.1 * w.1 + u.2 * w.2

private theorem sqDist_dt (p q : ℝ × ℝ) : sqDist p q = dt (p - q) (p - q) := by unfold sqDist dt; simp; ring

private theorem dt_pos {g : ℝ × ℝ} (hg : g ≠ 0) : 0 < dt g g := by
  unfold dt
  by_contra hc
  apply hg
  have h1 : g.1 = 0 := by nlinarith [mul_self_nonneg g.1, mul_self_nonneg g.2]
  have h2 : g.2 = 0 := by nlinarith [mul_self_nonneg g.1, mul_self_nonneg g.2]
  exact Prod.ext h1 h2

private theorem lagrange (P g k : ℝ × ℝ) : dt P k * dt g g = dt P g * dt k g + cr g P * cr g k := by
  unfold dt cr; ring

namespace SimpleSeq

variable {f : ℕ → ℝ × ℝ} {n : ℕ}

/-- A boundary point. -/
def Bd (f : ℕ → ℝ × ℝ) (n : ℕ) (x : ℝ × ℝ) : Prop := ∃ i < n, OnSide (f i) (f (i + 1)) x

theorem bd_of (h : SimpleSeq f n) {i : ℕ} {x : ℝ × ℝ} (hx : OnSide (f i) (f (i + 1)) x) : Bd f n x := by
  have hn := h.hn
  refine ⟨i % n, Nat.mod_lt _ (by omega), ?_⟩
  rwa [h.mod_eq, h.mod_succ]

theorem toward (h : SimpleSeq f n) {p q : ℝ × ℝ} (hmin : ∀ x, Bd f n x → sqDist p q ≤ sqDist p x) (hpq : p - q ≠ 0)
    {η : ℝ} (e0 : 0 < η) (e1 : η ≤ 1) : wind f n p = wind f n (q + η • (p - q)) := by
  refine h.wind_seg fun σ c0 c1 i hi hc => ?_
  have hm := hmin _ ⟨i, hi, hc⟩
  rw [sqDist_dt, sqDist_dt] at hm
  have ept : p - (p + σ • (q + η • (p - q) - p)) = (σ * (1 - η)) • (p - q) := by ext <;> simp <;> ring
  rw [ept] at hm
  have hN := dt_pos hpq
  have e : dt ((σ * (1 - η)) • (p - q)) ((σ * (1 - η)) • (p - q)) = (σ * (1 - η)) ^ 2 * dt (p - q) (p - q) := by
    unfold dt; simp only [Prod.smul_fst, Prod.smul_snd, smul_eq_mul]; ring
  rw [e] at hm
  have b0 : 0 ≤ σ * (1 - η) := mul_nonneg c0 (by linarith)
  have b1 : σ * (1 - η) < 1 := by nlinarith
  have : (σ * (1 - η)) ^ 2 < 1 := by nlinarith
  nlinarith

private theorem reach (h : SimpleSeq f n) {p q : ℝ × ℝ} (hmin : ∀ x, Bd f n x → sqDist p q ≤ sqDist p x)
    (hpq : p - q ≠ 0) {w : ℤ}
    (hw : ∃ η0 > (0 : ℝ), ∀ η : ℝ, 0 < η → η ≤ η0 → wind f n (q + η • (p - q)) = w) : wind f n p = w := by
  obtain ⟨η0, h0, hw⟩ := hw
  rw [h.toward hmin hpq (lt_min h0 one_pos) (min_le_right η0 1)]
  exact hw _ (lt_min h0 one_pos) (min_le_left _ _)

variable {L : ℤ}

/-- The nearest point is in the interior of a side. -/
theorem side_case (h : SimpleSeq f n) (hL : ∀ j, HasLeft f n j L) {p q : ℝ × ℝ}
    (hmin : ∀ x, Bd f n x → sqDist p q ≤ sqDist p x) (hpq : p - q ≠ 0) {j : ℕ} {t : ℝ} (h0 : 0 < t) (h1 : t < 1)
    (hq : q = f j + t • (f (j + 1) - f j)) :
    (0 < cr (f (j + 1) - f j) (p - q) → wind f n p = L) ∧ (cr (f (j + 1) - f j) (p - q) < 0 → wind f n p = L - 1) := by
  constructor
  · intro hc
    apply h.reach hmin hpq
    have := (hL j t h0 h1 (p - q)).1 hc
    rwa [← hq] at this
  · intro hc
    apply h.reach hmin hpq
    have := (hL j t h0 h1 (p - q)).2 hc
    rwa [← hq] at this

/-- The nearest point is a vertex. -/
theorem vertex_case (h : SimpleSeq f n) (hL : ∀ j, HasLeft f n j L) {p : ℝ × ℝ} {j : ℕ}
    (hmin : ∀ x, Bd f n x → sqDist p (f (j + 1)) ≤ sqDist p x) (hpq : p - f (j + 1) ≠ 0)
    (hg : dt (p - f (j + 1)) (f (j + 2) - f (j + 1)) ≤ 0) (hk : dt (p - f (j + 1)) (f j - f (j + 1)) ≤ 0) :
    (0 < cr (f (j + 2) - f (j + 1)) (f j - f (j + 1)) → wind f n p = L - 1) ∧
    (cr (f (j + 2) - f (j + 1)) (f j - f (j + 1)) < 0 → wind f n p = L) ∧
    (cr (f (j + 2) - f (j + 1)) (f j - f (j + 1)) = 0 →
      (0 < cr (f (j + 2) - f (j + 1)) (p - f (j + 1)) → wind f n p = L) ∧
      (cr (f (j + 2) - f (j + 1)) (p - f (j + 1)) < 0 → wind f n p = L - 1)) := by
  have vi := fun hH => h.vertex_in (hL j) (m := p - f (j + 1)) hH
  have vo := fun hH => h.vertex_out (hL (j + 1)) (m := p - f (j + 1)) hH
  have R := fun {w : ℤ} hw => h.reach hmin hpq (w := w) hw
  set P := p - f (j + 1) with hP
  set g := f (j + 2) - f (j + 1) with hgd
  set k := f j - f (j + 1) with hkd
  have hN := dt_pos hpq
  -- P = αg + βk
  have comb : dt P P * cr g k = cr P k * dt P g + cr g P * dt P k := by unfold dt cr; ring
  refine ⟨fun hgk => ?_, fun hgk => ?_, fun hz => ?_⟩
  · rcases lt_or_ge (cr P k) 0 with hPk | hPk
    · exact R ((vi (by nlinarith)).2 hPk)
    · have hgP : cr g P < 0 := by
        by_contra hc
        have a1 := mul_pos hN hgk
        have a2 := mul_nonneg hPk (neg_nonneg.2 hg)
        have a3 := mul_nonneg (not_lt.1 hc) (neg_nonneg.2 hk)
        linarith
      exact R ((vo (by nlinarith)).2 hgP)
  · rcases lt_or_ge 0 (cr P k) with hPk | hPk
    · exact R ((vi (by nlinarith)).1 hPk)
    · have hgP : 0 < cr g P := by
        by_contra hc
        have a1 := mul_neg_of_pos_of_neg hN hgk
        have a2 := mul_nonneg (neg_nonneg.2 hPk) (neg_nonneg.2 hg)
        have a3 := mul_nonneg (neg_nonneg.2 (not_lt.1 hc)) (neg_nonneg.2 hk)
        linarith
      exact R ((vo (by nlinarith)).1 hgP)
  · exact ⟨fun hc => R ((vo (by rw [hz, zero_mul])).1 hc), fun hc => R ((vo (by rw [hz, zero_mul])).2 hc)⟩

/-- Some side is not far, and its distance bounds the distance to any given boundary point. -/
theorem exists_le (h : SimpleSeq f n) (p : ℝ × ℝ) (i : ℕ) {s : ℝ} (hs0 : 0 ≤ s) (hs1 : s ≤ 1) :
    ∃ k < n, ∃ d, sideDist (f k) (f (k + 1)) p = some d ∧ d ≤ sqDist p (lerp (f i) (f (i + 1)) s) := by
  rcases le_or_gt (footParam (f i) (f (i + 1)) p) 1 with ht | ht
  · obtain ⟨d, h1, h2⟩ := sideDist_le (h.ne i) ht hs0
    refine ⟨i % n, Nat.mod_lt _ (by have := h.hn; omega), d, ?_, h2⟩
    rw [h.mod_eq, h.mod_succ]; exact h1
  · have h1 := (end_le (h.ne i) ht hs1).1
    obtain ⟨k, hk, hmin⟩ := Finset.exists_min_image (Finset.range n) (fun k => sqDist p (f k))
      ⟨0, Finset.mem_range.2 (by have := h.hn; omega)⟩
    have hmin' : ∀ m, sqDist p (f k) ≤ sqDist p (f m) := by
      intro m
      have := hmin (m % n) (Finset.mem_range.2 (Nat.mod_lt _ (by have := h.hn; omega)))
      rwa [h.mod_eq] at this
    have htk : footParam (f k) (f (k + 1)) p ≤ 1 := by
      by_contra hc
      have := (end_le (h.ne k) (not_le.1 hc) (le_refl 1)).2
      exact absurd (hmin' (k + 1)) (not_le.2 this)
    obtain ⟨d, h2, h3⟩ := sideDist_le (h.ne k) htk (le_refl 0)
    refine ⟨k, Finset.mem_range.1 hk, d, h2, ?_⟩
    have : lerp (f k) (f (k + 1)) 0 = f k := by unfold lerp; simp
    rw [this] at h3
    exact h3.trans ((hmin' (i + 1)).trans h1)

/-- Sides do not lead towards the point. -/
theorem dt_nonpos {p v w : ℝ × ℝ} (hmin : ∀ x, OnSide v w x → sqDist p v ≤ sqDist p x) : dt (p - v) (w - v) ≤ 0 := by
  by_contra hc
  obtain ⟨s, s0, s1, hs⟩ := closer (u1 := (p - v).1) (u2 := (p - v).2) (w1 := (w - v).1) (w2 := (w - v).2)
    (not_le.1 hc)
  have := hmin (v.1 + s * (w.1 - v.1), v.2 + s * (w.2 - v.2)) ⟨s, s0.le, s1, rfl⟩
  unfold sqDist at this
  simp only [Prod.fst_sub, Prod.snd_sub] at hs this
  have e1 : p.1 - (v.1 + s * (w.1 - v.1)) = p.1 - v.1 - s * (w.1 - v.1) := by ring
  have e2 : p.2 - (v.2 + s * (w.2 - v.2)) = p.2 - v.2 - s * (w.2 - v.2) := by ring
  rw [e1, e2] at this
  linarith

/-- The test on a simple polygon with the value `L` on the left of its sides. -/
theorem inside_level (h : SimpleSeq f n) (hL : ∀ j, HasLeft f n j L) {w : List (ℝ × ℝ)} (hlen : w.length = n + 1)
    (hpt : ∀ i ≤ n, pt w i = f i) (p : ℝ × ℝ) :
    ∃ neg d, isInside w p = .ok (neg, d) ∧ (∃ q, Bd f n q ∧ sqDist p q = d) ∧ (∀ q, Bd f n q → d ≤ sqDist p q) ∧
      (neg = true → ¬Bd f n p ∧ wind f n p = L - 1) ∧ (neg = false → Bd f n p ∨ wind f n p = L) := by
  have h3 := h.hn
  have spec := nearest_spec w p n
  unfold isInside nearest
  rw [show w.length - 1 = n by omega]
  simp only at spec ⊢
  set s := (List.range n).foldl (nearStep w p) ⟨none, 0, false⟩ with hs
  rcases spec with ⟨h1, h2⟩ | ⟨d, h1, h2, h3', h4, h5⟩
  · exfalso
    obtain ⟨k, hk, d, hd, -⟩ := h.exists_le p 0 (le_refl (0 : ℝ)) zero_le_one
    have := h2 k hk
    rw [hpt k (by omega), hpt (k + 1) (by omega), hd] at this
    cases this
  rw [h1]
  simp only
  rw [hpt s.j (by omega), hpt (s.j + 1) (by omega)] at h3' h4
  rw [hpt s.j (by omega), hpt (s.j + 1) (by omega)]
  have hmin : ∀ q, Bd f n q → d ≤ sqDist p q := by
    rintro q ⟨k, hk, σ, h0, hs1, rfl⟩
    obtain ⟨m, hm, d', hd', hle⟩ := h.exists_le p k h0 hs1
    have := h5 m hm d' (by rw [hpt m (by omega), hpt (m + 1) (by omega)]; exact hd')
    exact this.trans hle
  have hne := h.ne s.j
  -- off the boundary
  have off : ∀ q, sqDist p q = d → p - q ≠ 0 → ¬Bd f n p := by
    intro q hq hpq hc
    have := hmin p hc
    rw [← hq, sqDist_dt, sqDist_dt, sub_self] at this
    have h0 := dt_pos hpq
    have : dt (p - q) (p - q) ≤ 0 := by simpa [dt] using this
    linarith
  -- the side before
  obtain ⟨i, e0, e1, e2⟩ : ∃ i, f i = f (s.j + n - 1) ∧ f (i + 1) = f s.j ∧ f (i + 2) = f (s.j + 1) := by
    refine ⟨s.j + n - 1, rfl, ?_, ?_⟩
    · rw [show s.j + n - 1 + 1 = s.j + n by omega, h.per]
    · rw [show s.j + n - 1 + 2 = s.j + 1 + n by omega, h.per]
  have atv : ∀ q i, q = f (i + 1) → sqDist p q = d →
      (∀ x, Bd f n x → sqDist p (f (i + 1)) ≤ sqDist p x) ∧
      dt (p - f (i + 1)) (f (i + 2) - f (i + 1)) ≤ 0 ∧ dt (p - f (i + 1)) (f i - f (i + 1)) ≤ 0 := by
    intro q i hq hd
    have hm : ∀ x, Bd f n x → sqDist p (f (i + 1)) ≤ sqDist p x := by rw [← hq, hd]; exact hmin
    exact ⟨hm, dt_nonpos fun x hx => hm x (h.bd_of hx), dt_nonpos fun x hx => hm x (h.bd_of (onSide_swap hx))⟩
  by_cases hnear : 0 ≤ footParam (f s.j) (f (s.j + 1)) p ∧ footParam (f s.j) (f (s.j + 1)) p ≤ 1
  · rw [h4]
    simp only [hnear, and_self, decide_true, if_true]
    rw [sideDist_near hne hnear] at h3'
    injection h3' with hd
    set t := footParam (f s.j) (f (s.j + 1)) p with ht
    set q := lerp (f s.j) (f (s.j + 1)) t with hq
    have hq' : q = f s.j + t • (f (s.j + 1) - f s.j) := by rw [hq]; unfold lerp; ext <;> simp
    have perp : dt (p - q) (f (s.j + 1) - f s.j) = 0 := by
      have := footParam_mul hne p
      rw [← ht] at this
      rw [hq']
      unfold dt dotd at *
      simp only [Prod.fst_sub, Prod.snd_sub, Prod.fst_add, Prod.snd_add, Prod.smul_fst, Prod.smul_snd, smul_eq_mul]
      linear_combination -this
    have hlc : leftOf (f s.j) (f (s.j + 1)) p = cr (f (s.j + 1) - f s.j) (p - q) := by
      rw [leftOf_cr, hq']; unfold cr; simp; ring
    rw [polyDet_three, hlc]
    refine ⟨_, d, rfl, ⟨q, ⟨s.j, h2, t, hnear.1, hnear.2, rfl⟩, hd⟩, hmin, ?_⟩
    have hd0 : f (s.j + 1) - f s.j ≠ 0 := fun e => hne (sub_eq_zero.1 e).symm
    by_cases hpq : p - q = 0
    · have hp : p = q := sub_eq_zero.1 hpq
      have z : cr (f (s.j + 1) - f s.j) (p - q) = 0 := by rw [hpq]; unfold cr; simp
      rw [z]
      simp only [lt_self_iff_false, decide_false, Bool.false_eq_true, false_implies, true_and, forall_const]
      exact .inl ⟨s.j, h2, t, hnear.1, hnear.2, by rw [hp]; rfl⟩
    have hoff := off q hd hpq
    set dd := f (s.j + 1) - f s.j with hdd
    have hNd := dt_pos hd0
    have hNP := dt_pos hpq
    have hcr : cr dd (p - q) ≠ 0 := by
      intro hz
      have := lagrange (p - q) dd (p - q)
      rw [perp, hz] at this
      have := mul_pos hNP hNd
      nlinarith
    have goal : (cr dd (p - q) < 0 → wind f n p = L - 1) ∧ (0 < cr dd (p - q) → wind f n p = L) := by
      have hminq : ∀ x, Bd f n x → sqDist p q ≤ sqDist p x := by rw [hd]; exact hmin
      rcases eq_or_lt_of_le hnear.1 with t0 | t0
      · -- start of the side
        have hqv : q = f (i + 1) := by rw [hq', ← t0, zero_smul, add_zero, e1]
        obtain ⟨m1, m2, m3⟩ := atv q i hqv hd
        have hvc := h.vertex_case hL (j := i) m1 (by rw [← hqv]; exact hpq) m2 m3
        rw [e2, e1, ← hdd] at hvc
        rw [e1] at m3
        have hqj : q = f s.j := by rw [hqv, e1]
        rw [← hqj] at hvc m3
        set k := f i - q with hk
        have lg := lagrange (p - q) dd k
        rw [perp, zero_mul, zero_add] at lg
        have hle : cr dd (p - q) * cr dd k ≤ 0 := by
          rw [← lg]; exact mul_nonpos_of_nonpos_of_nonneg m3 hNd.le
        constructor
        · intro hc
          rcases lt_trichotomy (cr dd k) 0 with hz | hz | hz
          · nlinarith [mul_pos_of_neg_of_neg hc hz]
          · exact (hvc.2.2 hz).2 hc
          · exact hvc.1 hz
        · intro hc
          rcases lt_trichotomy (cr dd k) 0 with hz | hz | hz
          · exact hvc.2.1 hz
          · exact (hvc.2.2 hz).1 hc
          · nlinarith [mul_pos hc hz]
      rcases eq_or_lt_of_le hnear.2 with t1 | t1
      · -- end of the side
        have hqv : q = f (s.j + 1) := by rw [hq', t1, one_smul]; simp [hdd]
        obtain ⟨m1, m2, m3⟩ := atv q s.j hqv hd
        have hvc := h.vertex_case hL (j := s.j) m1 (by rw [← hqv]; exact hpq) m2 m3
        have ns := h.no_spike s.j
        rw [← hqv] at hvc m2 ns
        set g := f (s.j + 2) - q with hg
        have hkd : f s.j - q = -dd := by rw [hqv, hdd]; abel
        rw [hkd] at hvc ns
        have c1 : cr g (-dd) = cr dd g := by unfold cr; simp; ring
        rw [c1] at hvc ns
        have lg := lagrange (p - q) dd g
        rw [perp, zero_mul, zero_add] at lg
        have hle : cr dd (p - q) * cr dd g ≤ 0 := by
          rw [← lg]; exact mul_nonpos_of_nonpos_of_nonneg m2 hNd.le
        have str : cr dd g = 0 → ∃ μ : ℝ, 0 < μ ∧ cr dd (p - q) = μ * cr g (p - q) := by
          intro hz
          obtain ⟨μ, hμ, e⟩ := ns hz
          have e' : dd = μ • g := neg_injective e
          refine ⟨μ, hμ, ?_⟩
          rw [e']; unfold cr; simp; ring
        constructor
        · intro hc
          rcases lt_trichotomy (cr dd g) 0 with hz | hz | hz
          · nlinarith [mul_pos_of_neg_of_neg hc hz]
          · obtain ⟨μ, hμ, e⟩ := str hz
            refine (hvc.2.2 hz).2 ?_
            by_contra hcon
            have := mul_nonneg hμ.le (not_lt.1 hcon)
            linarith
          · exact hvc.1 hz
        · intro hc
          rcases lt_trichotomy (cr dd g) 0 with hz | hz | hz
          · exact hvc.2.1 hz
          · obtain ⟨μ, hμ, e⟩ := str hz
            refine (hvc.2.2 hz).1 ?_
            by_contra hcon
            have := mul_nonneg hμ.le (neg_nonneg.2 (not_lt.1 hcon))
            linarith
          · nlinarith [mul_pos hc hz]
      · have := h.side_case hL hminq hpq t0 t1 hq'
        exact ⟨this.2, this.1⟩
    refine ⟨fun hc => ⟨hoff, goal.1 (by simpa using hc)⟩, fun hc => .inr (goal.2 ?_)⟩
    have : ¬cr dd (p - q) < 0 := by simpa using hc
    exact lt_of_le_of_ne (not_lt.1 this) hcr.symm
  · have hnear' : s.snear = false := by rw [h4]; simp only [hnear, decide_false]
    rw [hnear']
    simp only [Bool.false_eq_true, if_false]
    have ht : footParam (f s.j) (f (s.j + 1)) p < 0 := by
      by_contra hge
      have h1' : 1 < footParam (f s.j) (f (s.j + 1)) p := by
        by_contra hle
        exact hnear ⟨not_lt.1 hge, not_lt.1 hle⟩
      rw [sideDist_far hne h1'] at h3'
      cases h3'
    rw [sideDist_vertex hne ht] at h3'
    injection h3' with hd
    have hprev : pt w (if s.j = 0 then w.length - 2 else s.j - 1) = f i := by
      rw [e0]
      split
      · rename_i h0
        rw [show w.length - 2 = n - 1 by omega, hpt _ (by omega), h0, Nat.zero_add]
      · rename_i h0
        rw [hpt _ (by omega), show s.j + n - 1 = s.j - 1 + n by omega, h.per]
    refine ⟨_, d, rfl, ⟨f s.j, ⟨s.j, h2, onSide_start _ _⟩, hd⟩, hmin, ?_⟩
    rw [hprev, polyDet_three]
    obtain ⟨m1, m2, m3⟩ := atv (f s.j) i e1.symm hd
    have hlt : dt (p - f s.j) (f (s.j + 1) - f s.j) < 0 := by
      have := footParam_mul hne p
      have h' := mul_neg_of_neg_of_pos ht (side_pos hne)
      rw [this] at h'
      unfold dotd at h'
      unfold dt
      simpa using h'
    have hpq : p - f s.j ≠ 0 := by
      intro e; rw [e] at hlt; simp [dt] at hlt
    have hvc := h.vertex_case hL (j := i) m1 (by rw [e1]; exact hpq) m2 m3
    have ns := h.no_spike i
    rw [e1, e2] at hvc ns
    rw [e1] at m3
    have hlc : leftOf (f (s.j + 1)) (f s.j) (f i) = -cr (f (s.j + 1) - f s.j) (f i - f s.j) := by
      rw [leftOf_cr]; unfold cr; simp; ring
    rw [hlc]
    set g := f (s.j + 1) - f s.j with hg
    set k := f i - f s.j with hk
    have hz : cr g k ≠ 0 := by
      intro hz
      obtain ⟨μ, hμ, e⟩ := ns hz
      rw [e] at m3
      have : dt (p - f s.j) (-(μ • g)) = -(μ * dt (p - f s.j) g) := by unfold dt; simp; ring
      rw [this] at m3
      have := mul_neg_of_pos_of_neg hμ hlt
      linarith
    refine ⟨fun hc => ⟨off _ hd hpq, hvc.1 ?_⟩, fun hc => .inr (hvc.2.1 ?_)⟩
    · have : -cr g k < 0 := by simpa using hc
      linarith
    · have : ¬-cr g k < 0 := by simpa using hc
      exact lt_of_le_of_ne (by linarith [not_lt.1 this]) hz

end SimpleSeq

end Acoular
