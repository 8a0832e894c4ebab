import Verif.Lemmas.Winding
import Mathlib.Topology.MetricSpace.Thickening
import Mathlib.Analysis.Normed.Module.Basic

/-!
# Lemmas: the two sides of a simple polygon

The winding number of a simple polygon has one value directly left of all sides and another one, smaller by one,
directly right of all sides; every point off the boundary has one of the two.
-/

set_option linter.unusedSectionVars false

namespace Acoular

open Spec

/-- Vector product. -/
def cr (u w : ℝ × ℝ) : ℝ := u.1 * w.2 - u.2 * w.1

theorem leftOf_cr (a b p : ℝ × ℝ) : leftOf a b p = cr (b - a) (p - a) := by
  unfold leftOf cr; simp

theorem onSide_iff (a b q : ℝ × ℝ) : OnSide a b q ↔ ∃ s : ℝ, 0 ≤ s ∧ s ≤ 1 ∧ q = a + s • (b - a) := by
  constructor <;> rintro ⟨s, h0, h1, rfl⟩ <;> exact ⟨s, h0, h1, by ext <;> simp⟩

theorem leftOf_onSide {a b q : ℝ × ℝ} (h : OnSide a b q) : leftOf a b q = 0 := by
  obtain ⟨s, -, -, rfl⟩ := h
  unfold leftOf; ring

theorem isClosed_onSide (a b : ℝ × ℝ) : IsClosed {q | OnSide a b q} := by
  have : {q | OnSide a b q} = (fun s : ℝ => a + s • (b - a)) '' Set.Icc 0 1 := by
    ext q
    rw [Set.mem_ofPred_eq, onSide_iff]
    constructor
    · rintro ⟨s, h0, h1, rfl⟩; exact ⟨s, ⟨h0, h1⟩, rfl⟩
    · rintro ⟨s, ⟨h0, h1⟩, rfl⟩; exact ⟨s, h0, h1, rfl⟩
  rw [this]
  exact (isCompact_Icc.image (by fun_prop)).isClosed

/-- Near a compact set there are no points of the sides that do not meet it. -/
theorem strip (f : ℕ → ℝ × ℝ) (n : ℕ) {A : Set (ℝ × ℝ)} (hA : IsCompact A) :
    ∃ δ > 0, ∀ x ∈ A, ∀ y, dist y x < δ → ∀ i < n, (∀ x ∈ A, ¬OnSide (f i) (f (i + 1)) x) →
      ¬OnSide (f i) (f (i + 1)) y := by
  have hU : ∀ n, IsOpen {y | ∀ i < n, (∀ x ∈ A, ¬OnSide (f i) (f (i + 1)) x) → ¬OnSide (f i) (f (i + 1)) y} := by
    intro n
    induction n with
    | zero => simp
    | succ n ih =>
      have e : {y | ∀ i < n + 1, (∀ x ∈ A, ¬OnSide (f i) (f (i + 1)) x) → ¬OnSide (f i) (f (i + 1)) y} =
          {y | ∀ i < n, (∀ x ∈ A, ¬OnSide (f i) (f (i + 1)) x) → ¬OnSide (f i) (f (i + 1)) y} ∩
          {y | (∀ x ∈ A, ¬OnSide (f n) (f (n + 1)) x) → ¬OnSide (f n) (f (n + 1)) y} := by
        ext y
        constructor
        · intro h
          exact ⟨fun i hi => h i (by omega), h n (by omega)⟩
        · rintro ⟨h1, h2⟩ i hi
          rcases Nat.lt_succ_iff_lt_or_eq.1 hi with h | rfl
          · exact h1 i h
          · exact h2
      rw [e]
      refine ih.inter ?_
      by_cases hc : ∀ x ∈ A, ¬OnSide (f n) (f (n + 1)) x
      · have := (isClosed_onSide (f n) (f (n + 1))).isOpen_compl
        have e2 : {y | (∀ x ∈ A, ¬OnSide (f n) (f (n + 1)) x) → ¬OnSide (f n) (f (n + 1)) y} =
            {q | OnSide (f n) (f (n + 1)) q}ᶜ := by
          ext y
          exact ⟨fun h => h hc, fun h _ => h⟩
        rw [e2]; exact this
      · have e2 : {y | (∀ x ∈ A, ¬OnSide (f n) (f (n + 1)) x) → ¬OnSide (f n) (f (n + 1)) y} = Set.univ := by
          ext y
          exact ⟨fun _ => trivial, fun _ h => absurd h hc⟩
        rw [e2]; exact isOpen_univ
  obtain ⟨δ, hδ, hsub⟩ := hA.exists_thickening_subset_open (hU n) (fun x hx i _ h => h x hx)
  refine ⟨δ, hδ, fun x hx y hy i hi h => ?_⟩
  exact hsub (Metric.mem_thickening_iff.2 ⟨x, hx, hy⟩) i hi h

/-- A simple polygon as a periodic sequence of vertices. -/
structure SimpleSeq (f : ℕ → ℝ × ℝ) (n : ℕ) : Prop where
  hn : 3 ≤ n
  per : ∀ i, f (i + n) = f i
  ne : ∀ i, f i ≠ f (i + 1)
  disj : ∀ i j, i % n ≠ j % n → ∀ q, OnSide (f i) (f (i + 1)) q → OnSide (f j) (f (j + 1)) q →
    (j % n = (i + 1) % n ∧ q = f j) ∨ (i % n = (j + 1) % n ∧ q = f i)

namespace SimpleSeq

variable {f : ℕ → ℝ × ℝ} {n : ℕ}

theorem mod_eq (h : SimpleSeq f n) (i : ℕ) : f (i % n) = f i := by
  have key : ∀ k j, f (j + k * n) = f j := by
    intro k
    induction k with
    | zero => simp
    | succ k ih => intro j; rw [Nat.succ_mul, ← Nat.add_assoc, h.per, ih]
  conv_rhs => rw [← Nat.mod_add_div' i n]
  exact (key _ _).symm

theorem mod_succ (h : SimpleSeq f n) (i : ℕ) : f (i % n + 1) = f (i + 1) := by
  rw [← h.mod_eq (i % n + 1), ← h.mod_eq (i + 1), Nat.mod_add_mod]

theorem closed (h : SimpleSeq f n) : f n = f 0 := by have := h.per 0; rwa [Nat.zero_add] at this

theorem eq_of_mod (h : SimpleSeq f n) {i j : ℕ} (e : i % n = j % n) : f i = f j := by
  rw [← h.mod_eq i, ← h.mod_eq j, e]

theorem eq_of_mod_succ (h : SimpleSeq f n) {i j : ℕ} (e : i % n = j % n) : f (i + 1) = f (j + 1) := by
  rw [← h.mod_succ i, ← h.mod_succ j, e]

/-- A point in the interior of a side is on no other side. -/
theorem open_off (h : SimpleSeq f n) {i j : ℕ} (hij : i % n ≠ j % n) {s : ℝ} (h0 : 0 < s) (h1 : s < 1) :
    ¬OnSide (f i) (f (i + 1)) (f j + s • (f (j + 1) - f j)) := by
  intro hc
  have hne := h.ne j
  have hd : f (j + 1) - f j ≠ 0 := fun e => hne (sub_eq_zero.1 e).symm
  rcases h.disj i j hij _ hc ((onSide_iff _ _ _).2 ⟨s, h0.le, h1.le, rfl⟩) with ⟨-, e⟩ | ⟨e1, e⟩
  · have : s • (f (j + 1) - f j) = 0 := by simpa using e
    rcases smul_eq_zero.1 this with h | h
    · exact h0.ne' h
    · exact hd h
  · have e2 : f i = f (j + 1) := h.eq_of_mod e1
    rw [e2] at e
    have : (1 - s) • (f (j + 1) - f j) = 0 := by
      rw [sub_smul, one_smul, sub_eq_zero]
      exact (eq_sub_of_add_eq' e).symm ▸ rfl
    rcases smul_eq_zero.1 this with h | h
    · linarith
    · exact hd h

theorem wind_seg (h : SimpleSeq f n) {x y : ℝ × ℝ}
    (hno : ∀ σ : ℝ, 0 ≤ σ → σ ≤ 1 → ∀ i < n, ¬OnSide (f i) (f (i + 1)) (x + σ • (y - x))) :
    wind f n x = wind f n y := by
  refine wind_const h.closed fun i hi q h1 h2 => ?_
  obtain ⟨σ, h0, h1', rfl⟩ := (onSide_iff _ _ _).1 h2
  exact hno σ h0 h1' i hi h1

private theorem dist_add_smul (x m : ℝ × ℝ) {η : ℝ} (hη : 0 ≤ η) : dist (x + η • m) x = η * ‖m‖ := by
  rw [dist_eq_norm, add_sub_cancel_left, norm_smul, Real.norm_of_nonneg hη]

private theorem small {δ : ℝ} (hδ : 0 < δ) (m : ℝ × ℝ) : ∃ η0 > (0 : ℝ), ∀ η : ℝ, 0 < η → η ≤ η0 → η * ‖m‖ < δ := by
  refine ⟨δ / (‖m‖ + 1), by positivity, fun η h0 h1 => ?_⟩
  rw [le_div_iff₀ (by positivity)] at h1
  nlinarith [norm_nonneg m]

/-- Along a side. -/
theorem along (h : SimpleSeq f n) {j : ℕ} (hj : j < n) {s s' : ℝ} (h0 : 0 < s) (h1 : s < 1) (h0' : 0 < s')
    (h1' : s' < 1) {m : ℝ × ℝ} (hm : cr (f (j + 1) - f j) m ≠ 0) :
    ∃ η0 > (0 : ℝ), ∀ η : ℝ, 0 < η → η ≤ η0 →
      wind f n (f j + s • (f (j + 1) - f j) + η • m) = wind f n (f j + s' • (f (j + 1) - f j) + η • m) := by
  set d := f (j + 1) - f j with hd
  obtain ⟨δ, hδ, hs⟩ := strip f n (A := (fun t : ℝ => f j + t • d) '' Set.uIcc s s') (isCompact_uIcc.image (by fun_prop))
  have hoff : ∀ i < n, i ≠ j → ∀ x ∈ (fun t : ℝ => f j + t • d) '' Set.uIcc s s', ¬OnSide (f i) (f (i + 1)) x := by
    rintro i hi hij _ ⟨t, ht, rfl⟩
    have := Set.mem_uIcc.1 ht
    refine h.open_off (by rwa [Nat.mod_eq_of_lt hi, Nat.mod_eq_of_lt hj]) ?_ ?_
    · rcases this with ⟨a, b⟩ | ⟨a, b⟩ <;> linarith
    · rcases this with ⟨a, b⟩ | ⟨a, b⟩ <;> linarith
  obtain ⟨η0, hη0, hsm⟩ := small hδ m
  refine ⟨η0, hη0, fun η e0 e1 => h.wind_seg fun σ c0 c1 i hi => ?_⟩
  have ept : f j + s • d + η • m + σ • (f j + s' • d + η • m - (f j + s • d + η • m)) =
      f j + (s + σ * (s' - s)) • d + η • m := by
    ext <;> simp <;> ring
  rw [ept]
  by_cases hij : i = j
  · subst hij
    intro hc
    have := leftOf_onSide hc
    rw [leftOf_cr] at this
    apply hm
    have e : cr (f (i + 1) - f i) (f i + (s + σ * (s' - s)) • d + η • m - f i) = η * cr d m := by
      unfold cr; simp [hd]; ring
    rw [e] at this
    rcases mul_eq_zero.1 this with h | h
    · linarith
    · exact h
  · refine hs _ ⟨s + σ * (s' - s), ?_, rfl⟩ _ 
      ((dist_add_smul (f j + (s + σ * (s' - s)) • d) m e0.le).trans_lt (hsm η e0 e1)) i hi (hoff i hi hij)
    rw [Set.mem_uIcc]
    rcases le_total s s' with hss | hss
    · left; constructor <;> nlinarith
    · right; constructor <;> nlinarith

/-- Around a point of a side, on one side of it. -/
theorem turn (h : SimpleSeq f n) {j : ℕ} (hj : j < n) {s : ℝ} (h0 : 0 < s) (h1 : s < 1) {m m' : ℝ × ℝ}
    (hm : 0 < cr (f (j + 1) - f j) m * cr (f (j + 1) - f j) m') :
    ∃ η0 > (0 : ℝ), ∀ η : ℝ, 0 < η → η ≤ η0 → ∀ η' : ℝ, 0 < η' → η' ≤ η0 →
      wind f n (f j + s • (f (j + 1) - f j) + η • m) = wind f n (f j + s • (f (j + 1) - f j) + η' • m') := by
  set d := f (j + 1) - f j with hd
  obtain ⟨δ, hδ, hs⟩ := strip f n (A := {f j + s • d}) isCompact_singleton
  have hoff : ∀ i < n, i ≠ j → ∀ x ∈ ({f j + s • d} : Set (ℝ × ℝ)), ¬OnSide (f i) (f (i + 1)) x := by
    rintro i hi hij _ rfl
    exact h.open_off (by rwa [Nat.mod_eq_of_lt hi, Nat.mod_eq_of_lt hj]) h0 h1
  obtain ⟨η1, hη1, hsm1⟩ := small hδ m
  obtain ⟨η2, hη2, hsm2⟩ := small hδ m'
  refine ⟨min η1 η2, lt_min hη1 hη2, fun η e0 e1 η' e0' e1' => h.wind_seg fun σ c0 c1 i hi => ?_⟩
  have k1 := hsm1 η e0 (e1.trans (min_le_left _ _))
  have k2 := hsm2 η' e0' (e1'.trans (min_le_right _ _))
  have ept : f j + s • d + η • m + σ • (f j + s • d + η' • m' - (f j + s • d + η • m)) =
      f j + s • d + (((1 - σ) * η) • m + (σ * η') • m') := by
    ext <;> simp <;> ring
  rw [ept]
  by_cases hij : i = j
  · subst hij
    intro hc
    have := leftOf_onSide hc
    rw [leftOf_cr] at this
    have e : cr (f (i + 1) - f i) (f i + s • d + (((1 - σ) * η) • m + (σ * η') • m') - f i) =
        (1 - σ) * η * cr d m + σ * η' * cr d m' := by
      unfold cr; simp [hd]; ring
    rw [e] at this
    have hz := this
    have q1 : 0 ≤ (1 - σ) * η := mul_nonneg (by linarith) e0.le
    have q2 : 0 ≤ σ * η' := mul_nonneg c0 e0'.le
    have q3 : 0 < (1 - σ) * η + σ * η' := by
      rcases eq_or_lt_of_le c0 with h | h
      · rw [← h]; linarith
      · have := mul_pos h e0'; linarith
    rcases pos_and_pos_or_neg_and_neg_of_mul_pos hm with ⟨a, b⟩ | ⟨a, b⟩
    · rcases eq_or_lt_of_le q1 with h | h
      · have := mul_pos (by linarith : 0 < σ * η') b; rw [← h, zero_mul] at hz; linarith
      · have := mul_pos h a; have := mul_nonneg q2 b.le; linarith
    · rcases eq_or_lt_of_le q1 with h | h
      · have := mul_neg_of_pos_of_neg (by linarith : 0 < σ * η') b; rw [← h, zero_mul] at hz; linarith
      · have := mul_neg_of_pos_of_neg h a; have := mul_nonpos_of_nonneg_of_nonpos q2 b.le; linarith
  · refine hs _ rfl _ ?_ i hi (hoff i hi hij)
    rw [dist_eq_norm, add_sub_cancel_left]
    calc ‖((1 - σ) * η) • m + (σ * η') • m'‖ ≤ ‖((1 - σ) * η) • m‖ + ‖(σ * η') • m'‖ := norm_add_le _ _
      _ = (1 - σ) * (η * ‖m‖) + σ * (η' * ‖m'‖) := by
        rw [norm_smul, norm_smul, Real.norm_of_nonneg (mul_nonneg (by linarith) e0.le),
          Real.norm_of_nonneg (mul_nonneg c0 e0'.le)]; ring
      _ < δ := by
        rcases eq_or_lt_of_le c0 with h | h
        · rw [← h]; linarith
        · nlinarith

/-- Through a side. -/
theorem jump (h : SimpleSeq f n) {j : ℕ} (hj : j < n) {s : ℝ} (h0 : 0 < s) (h1 : s < 1) {m : ℝ × ℝ}
    (hm : 0 < cr (f (j + 1) - f j) m) :
    ∃ η0 > (0 : ℝ), ∀ η : ℝ, 0 < η → η ≤ η0 → wind f n (f j + s • (f (j + 1) - f j) + η • m) =
      wind f n (f j + s • (f (j + 1) - f j) + η • (-m)) + 1 := by
  set d := f (j + 1) - f j with hd
  obtain ⟨δ, hδ, hs⟩ := strip f n (A := {f j + s • d}) isCompact_singleton
  have hoff : ∀ i < n, i ≠ j → ∀ x ∈ ({f j + s • d} : Set (ℝ × ℝ)), ¬OnSide (f i) (f (i + 1)) x := by
    rintro i hi hij _ rfl
    exact h.open_off (by rwa [Nat.mod_eq_of_lt hi, Nat.mod_eq_of_lt hj]) h0 h1
  obtain ⟨η0, hη0, hsm⟩ := small hδ m
  refine ⟨η0, hη0, fun η e0 e1 => ?_⟩
  refine wind_cross h.closed hj (s := s) (τ := 1 / 2) h0 h1 (by norm_num) (by norm_num) ?_ ?_ ?_
  · unfold lerp; ext <;> simp [hd] <;> ring
  · unfold crossd
    unfold cr at hm
    simp only [hd, Prod.fst_sub, Prod.snd_sub, Prod.fst_add, Prod.snd_add, Prod.smul_fst, Prod.smul_snd, smul_eq_mul,
      Prod.fst_neg, Prod.snd_neg] at hm ⊢
    have := mul_pos e0 hm
    linarith
  · intro i hi hij q hq1 hq2
    obtain ⟨σ, c0, c1, rfl⟩ := (onSide_iff _ _ _).1 hq2
    refine hs _ rfl _ ?_ i hi (hoff i hi hij) hq1
    rw [dist_eq_norm]
    have ept : f j + s • d + η • (-m) + σ • (f j + s • d + η • m - (f j + s • d + η • (-m))) - (f j + s • d) =
      ((2 * σ - 1) * η) • m := by ext <;> simp <;> ring
    rw [ept, norm_smul, norm_mul, Real.norm_of_nonneg e0.le]
    have : ‖2 * σ - 1‖ ≤ 1 := by rw [Real.norm_eq_abs, abs_le]; constructor <;> linarith
    calc ‖2 * σ - 1‖ * η * ‖m‖ ≤ 1 * η * ‖m‖ := by gcongr
      _ < δ := by rw [one_mul]; exact hsm η e0 e1

/-- The winding number directly left of side `j` is `l`, directly right of it `l - 1`. -/
def HasLeft (f : ℕ → ℝ × ℝ) (n j : ℕ) (l : ℤ) : Prop :=
  ∀ s : ℝ, 0 < s → s < 1 → ∀ m : ℝ × ℝ,
    (0 < cr (f (j + 1) - f j) m → ∃ η0 > (0 : ℝ), ∀ η : ℝ, 0 < η → η ≤ η0 → wind f n (f j + s • (f (j + 1) - f j) + η • m) = l) ∧
    (cr (f (j + 1) - f j) m < 0 → ∃ η0 > (0 : ℝ), ∀ η : ℝ, 0 < η → η ≤ η0 →
      wind f n (f j + s • (f (j + 1) - f j) + η • m) = l - 1)

private theorem cr_neg (u m : ℝ × ℝ) : cr u (-m) = -cr u m := by unfold cr; simp; ring

/-- Each side has a value on its left. -/
theorem exists_left (h : SimpleSeq f n) {j : ℕ} (hj : j < n) : ∃ l, HasLeft f n j l := by
  set d := f (j + 1) - f j with hd
  have hd0 : d ≠ 0 := fun e => h.ne j (sub_eq_zero.1 e).symm
  set m0 : ℝ × ℝ := (-d.2, d.1) with hm0
  have hc0 : 0 < cr d m0 := by
    unfold cr
    simp only [hm0]
    have : 0 < d.1 ^ 2 + d.2 ^ 2 := by
      by_contra hc
      apply hd0
      have h1 : d.1 = 0 := by nlinarith [sq_nonneg d.1, sq_nonneg d.2]
      have h2 : d.2 = 0 := by nlinarith [sq_nonneg d.1, sq_nonneg d.2]
      exact Prod.ext h1 h2
    nlinarith
  have hhalf : (0 : ℝ) < 1 / 2 ∧ (1 / 2 : ℝ) < 1 := by constructor <;> norm_num
  obtain ⟨η0, hη0, hl⟩ := h.turn hj hhalf.1 hhalf.2 (m := m0) (m' := m0) (mul_pos hc0 hc0)
  have left : ∀ s : ℝ, 0 < s → s < 1 → ∀ m : ℝ × ℝ, 0 < cr d m → ∃ η1 > (0 : ℝ), ∀ η : ℝ, 0 < η → η ≤ η1 →
      wind f n (f j + s • d + η • m) = wind f n (f j + (1 / 2 : ℝ) • d + η0 • m0) := by
    intro s h0 h1 m hm
    obtain ⟨η1, hη1, k1⟩ := h.turn hj h0 h1 (m := m) (m' := m0) (mul_pos hm hc0)
    obtain ⟨η2, hη2, k2⟩ := h.along hj h0 h1 hhalf.1 hhalf.2 (m := m0) hc0.ne'
    refine ⟨η1, hη1, fun η e0 e1 => ?_⟩
    have hmin : 0 < min η1 (min η2 η0) := lt_min hη1 (lt_min hη2 hη0)
    rw [k1 η e0 e1 (min η1 (min η2 η0)) hmin (min_le_left _ _),
      k2 (min η1 (min η2 η0)) hmin ((min_le_right _ _).trans (min_le_left _ _)),
      hl (min η1 (min η2 η0)) hmin ((min_le_right _ _).trans (min_le_right _ _)) η0 hη0 (le_refl _)]
  refine ⟨wind f n (f j + (1 / 2 : ℝ) • d + η0 • m0), fun s h0 h1 m => ⟨left s h0 h1 m, fun hm => ?_⟩⟩
  have hm' : 0 < cr d (-m) := by rw [cr_neg]; linarith
  obtain ⟨η1, hη1, k1⟩ := left s h0 h1 (-m) hm'
  obtain ⟨η2, hη2, k2⟩ := h.jump hj h0 h1 hm'
  refine ⟨min η1 η2, lt_min hη1 hη2, fun η e0 e1 => ?_⟩
  have := k2 η e0 (e1.trans (min_le_right _ _))
  rw [k1 η e0 (e1.trans (min_le_left _ _)), neg_neg] at this
  linarith

theorem hasLeft_mod (h : SimpleSeq f n) {i j : ℕ} (e : i % n = j % n) {l : ℤ} : HasLeft f n i l ↔ HasLeft f n j l := by
  unfold HasLeft
  rw [h.eq_of_mod e, h.eq_of_mod_succ e]

theorem exists_left' (h : SimpleSeq f n) (j : ℕ) : ∃ l, HasLeft f n j l := by
  have hn := h.hn
  obtain ⟨l, hl⟩ := h.exists_left (j := j % n) (Nat.mod_lt _ (by omega))
  exact ⟨l, (h.hasLeft_mod (Nat.mod_mod _ _)).1 hl⟩

/-- Around a point `v` that is on sides contained in two half lines. -/
theorem cone (h : SimpleSeq f n) {v G H m : ℝ × ℝ}
    (hoff : ∀ i < n, OnSide (f i) (f (i + 1)) v → ∀ x, OnSide (f i) (f (i + 1)) x →
      (∃ s : ℝ, 0 ≤ s ∧ x = v + s • G) ∨ ∃ s : ℝ, 0 ≤ s ∧ x = v + s • H)
    (hG : cr G m ≠ 0) (hH : cr G H * cr G m ≤ 0) :
    ∃ η0 > (0 : ℝ), ∀ η : ℝ, 0 < η → η ≤ η0 → ∀ κ : ℝ, 0 < κ → κ ≤ η0 →
      wind f n (v + η • m) = wind f n (v + η • G + κ • m) := by
  obtain ⟨δ, hδ, hs⟩ := strip f n (A := {v}) isCompact_singleton
  have hpos : 0 < ‖G‖ + ‖m‖ + 1 := by positivity
  refine ⟨δ / (‖G‖ + ‖m‖ + 1), by positivity, fun η e0 e1 κ k0 k1 => h.wind_seg fun σ c0 c1 i hi => ?_⟩
  rw [le_div_iff₀ hpos] at e1 k1
  have ept : v + η • m + σ • (v + η • G + κ • m - (v + η • m)) = v + ((σ * η) • G + ((1 - σ) * η + σ * κ) • m) := by
    ext <;> simp <;> ring
  rw [ept]
  have hα : 0 ≤ σ * η := mul_nonneg c0 e0.le
  have hβ : 0 < (1 - σ) * η + σ * κ := by
    rcases eq_or_lt_of_le c0 with h | h
    · rw [← h]; linarith
    · have := mul_pos h k0; have := mul_nonneg (by linarith : 0 ≤ 1 - σ) e0.le; linarith
  by_cases hv : OnSide (f i) (f (i + 1)) v
  · intro hc
    have key : ∀ X : ℝ × ℝ, ∀ s : ℝ, v + ((σ * η) • G + ((1 - σ) * η + σ * κ) • m) = v + s • X →
        ((1 - σ) * η + σ * κ) * cr G m = s * cr G X := by
      intro X s e
      have e' := add_left_cancel e
      have e1 : σ * η * G.1 + ((1 - σ) * η + σ * κ) * m.1 = s * X.1 := by simpa using congrArg Prod.fst e'
      have e2 : σ * η * G.2 + ((1 - σ) * η + σ * κ) * m.2 = s * X.2 := by simpa using congrArg Prod.snd e'
      unfold cr
      linear_combination G.1 * e2 - G.2 * e1
    rcases hoff i hi hv _ hc with ⟨s, hs0, e⟩ | ⟨s, hs0, e⟩
    · have := key G s e
      have z : cr G G = 0 := by unfold cr; ring
      rw [z, mul_zero] at this
      exact (mul_ne_zero hβ.ne' hG) this
    · have := key H s e
      have p1 : 0 < cr G m * cr G m := mul_self_pos.2 hG
      have p2 := mul_pos hβ p1
      have p3 := mul_nonneg hs0 (neg_nonneg.2 hH)
      have p4 : ((1 - σ) * η + σ * κ) * cr G m * cr G m = s * cr G H * cr G m := by rw [this]
      nlinarith
  · refine hs v rfl _ ?_ i hi (by rintro x rfl; exact hv)
    rw [dist_eq_norm, add_sub_cancel_left]
    have b1 : η * ‖G‖ + max η κ * ‖m‖ < δ := by
      rcases le_total η κ with hle | hle
      · rw [max_eq_right hle]; nlinarith [norm_nonneg G, norm_nonneg m]
      · rw [max_eq_left hle]; nlinarith [norm_nonneg G, norm_nonneg m]
    have b2 : (1 - σ) * η + σ * κ ≤ max η κ := by
      nlinarith [le_max_left η κ, le_max_right η κ]
    calc ‖(σ * η) • G + ((1 - σ) * η + σ * κ) • m‖ ≤ ‖(σ * η) • G‖ + ‖((1 - σ) * η + σ * κ) • m‖ := norm_add_le _ _
      _ = σ * η * ‖G‖ + ((1 - σ) * η + σ * κ) * ‖m‖ := by
        rw [norm_smul, norm_smul, Real.norm_of_nonneg hα, Real.norm_of_nonneg hβ.le]
      _ ≤ η * ‖G‖ + max η κ * ‖m‖ := by
        gcongr
        nlinarith
      _ < δ := b1

/-- The sides at a vertex. -/
theorem at_vertex (h : SimpleSeq f n) (j : ℕ) : ∀ i < n, OnSide (f i) (f (i + 1)) (f (j + 1)) →
    i % n = j % n ∨ i % n = (j + 1) % n := by
  intro i _ hv
  by_contra hc
  push Not at hc
  rcases h.disj i j hc.1 _ hv (onSide_end _ _) with ⟨-, e⟩ | ⟨e, -⟩
  · exact h.ne j e.symm
  · exact hc.2 e

private theorem rays (h : SimpleSeq f n) (j : ℕ) : ∀ i < n, OnSide (f i) (f (i + 1)) (f (j + 1)) →
    ∀ x, OnSide (f i) (f (i + 1)) x →
      (∃ s : ℝ, 0 ≤ s ∧ x = f (j + 1) + s • (f (j + 2) - f (j + 1))) ∨
      ∃ s : ℝ, 0 ≤ s ∧ x = f (j + 1) + s • (f j - f (j + 1)) := by
  intro i hi hv x hx
  rcases h.at_vertex j i hi hv with e | e
  · rw [h.eq_of_mod e, h.eq_of_mod_succ e] at hx
    obtain ⟨s, h0, -, rfl⟩ := (onSide_iff _ _ _).1 (onSide_swap hx)
    exact .inr ⟨s, h0, rfl⟩
  · rw [h.eq_of_mod e, h.eq_of_mod_succ e] at hx
    obtain ⟨s, h0, -, rfl⟩ := (onSide_iff _ _ _).1 hx
    exact .inl ⟨s, h0, rfl⟩

private theorem cr_neg_left (u m : ℝ × ℝ) : cr (-u) m = -cr u m := by unfold cr; simp; ring

private theorem cr_comm (u m : ℝ × ℝ) : cr m u = -cr u m := by unfold cr; ring

/-- Near the start of a side. -/
theorem vertex_out (h : SimpleSeq f n) {j : ℕ} {l : ℤ} (hl : HasLeft f n (j + 1) l) {m : ℝ × ℝ}
    (hH : cr (f (j + 2) - f (j + 1)) (f j - f (j + 1)) * cr (f (j + 2) - f (j + 1)) m ≤ 0) :
    (0 < cr (f (j + 2) - f (j + 1)) m → ∃ η0 > (0 : ℝ), ∀ η : ℝ, 0 < η → η ≤ η0 → wind f n (f (j + 1) + η • m) = l) ∧
    (cr (f (j + 2) - f (j + 1)) m < 0 → ∃ η0 > (0 : ℝ), ∀ η : ℝ, 0 < η → η ≤ η0 →
      wind f n (f (j + 1) + η • m) = l - 1) := by
  have main : ∀ w, cr (f (j + 2) - f (j + 1)) m ≠ 0 → (∀ s : ℝ, 0 < s → s < 1 → ∃ η0 > (0 : ℝ), ∀ η : ℝ, 0 < η → η ≤ η0 →
      wind f n (f (j + 1) + s • (f (j + 1 + 1) - f (j + 1)) + η • m) = w) →
      ∃ η0 > (0 : ℝ), ∀ η : ℝ, 0 < η → η ≤ η0 → wind f n (f (j + 1) + η • m) = w := by
    intro w hne hw
    obtain ⟨η0, hη0, hc⟩ := h.cone (h.rays j) hne hH
    refine ⟨min η0 (1 / 2), lt_min hη0 (by norm_num), fun η e0 e1 => ?_⟩
    obtain ⟨η1, hη1, hw1⟩ := hw η e0 (by have := e1.trans (min_le_right _ _); linarith)
    rw [hc η e0 (e1.trans (min_le_left _ _)) (min η0 η1) (lt_min hη0 hη1) (min_le_left _ _)]
    exact hw1 _ (lt_min hη0 hη1) (min_le_right _ _)
  exact ⟨fun hm => main l hm.ne' fun s h0 h1 => (hl s h0 h1 m).1 hm,
    fun hm => main (l - 1) hm.ne fun s h0 h1 => (hl s h0 h1 m).2 hm⟩

/-- Near the end of a side. -/
theorem vertex_in (h : SimpleSeq f n) {j : ℕ} {l : ℤ} (hl : HasLeft f n j l) {m : ℝ × ℝ}
    (hH : cr (f (j + 2) - f (j + 1)) (f j - f (j + 1)) * cr m (f j - f (j + 1)) ≤ 0) :
    (0 < cr m (f j - f (j + 1)) → ∃ η0 > (0 : ℝ), ∀ η : ℝ, 0 < η → η ≤ η0 → wind f n (f (j + 1) + η • m) = l) ∧
    (cr m (f j - f (j + 1)) < 0 → ∃ η0 > (0 : ℝ), ∀ η : ℝ, 0 < η → η ≤ η0 →
      wind f n (f (j + 1) + η • m) = l - 1) := by
  have e1 : f (j + 1) - f j = -(f j - f (j + 1)) := by abel
  have e2 : cr (f (j + 1) - f j) m = cr m (f j - f (j + 1)) := by
    rw [e1, cr_neg_left, cr_comm, neg_neg]
  have main : ∀ w, cr m (f j - f (j + 1)) ≠ 0 → (∀ s : ℝ, 0 < s → s < 1 → ∃ η0 > (0 : ℝ), ∀ η : ℝ, 0 < η → η ≤ η0 →
      wind f n (f j + s • (f (j + 1) - f j) + η • m) = w) →
      ∃ η0 > (0 : ℝ), ∀ η : ℝ, 0 < η → η ≤ η0 → wind f n (f (j + 1) + η • m) = w := by
    intro w hne hw
    obtain ⟨η0, hη0, hc⟩ := h.cone (v := f (j + 1)) (G := f j - f (j + 1)) (H := f (j + 2) - f (j + 1)) (m := m)
      (fun i hi hv x hx => (h.rays j i hi hv x hx).symm) (by rw [cr_comm]; exact neg_ne_zero.2 hne)
      (by rw [cr_comm, cr_comm m]; linarith)
    refine ⟨min η0 (1 / 2), lt_min hη0 (by norm_num), fun η e0 e1 => ?_⟩
    obtain ⟨η1, hη1, hw1⟩ := hw (1 - η) (by have := e1.trans (min_le_right _ _); linarith) (by linarith)
    rw [hc η e0 (e1.trans (min_le_left _ _)) (min η0 η1) (lt_min hη0 hη1) (min_le_left _ _)]
    have := hw1 _ (lt_min hη0 hη1) (min_le_right _ _)
    rw [← this]
    congr 1
    ext <;> simp <;> ring
  exact ⟨fun hm => main l hm.ne' fun s h0 h1 => (hl s h0 h1 m).1 (by rw [e2]; exact hm),
    fun hm => main (l - 1) hm.ne fun s h0 h1 => (hl s h0 h1 m).2 (by rw [e2]; exact hm)⟩

private theorem normSq_pos {g : ℝ × ℝ} (hg : g ≠ 0) : 0 < g.1 * g.1 + g.2 * g.2 := by
  by_contra hc
  apply hg
  have h1 : g.1 = 0 := by nlinarith [mul_self_nonneg g.1, mul_self_nonneg g.2]
  have h2 : g.2 = 0 := by nlinarith [mul_self_nonneg g.1, mul_self_nonneg g.2]
  exact Prod.ext h1 h2

/-- Two consecutive sides on one line do not turn back. -/
theorem no_spike (h : SimpleSeq f n) (j : ℕ) (hz : cr (f (j + 2) - f (j + 1)) (f j - f (j + 1)) = 0) :
    ∃ μ : ℝ, 0 < μ ∧ f j - f (j + 1) = -(μ • (f (j + 2) - f (j + 1))) := by
  set g := f (j + 2) - f (j + 1) with hg
  set k := f j - f (j + 1) with hk
  have hg0 : g ≠ 0 := fun e => h.ne (j + 1) (sub_eq_zero.1 e).symm
  have hk0 : k ≠ 0 := fun e => h.ne j (sub_eq_zero.1 e)
  have hN := normSq_pos hg0
  set μ := (k.1 * g.1 + k.2 * g.2) / (g.1 * g.1 + g.2 * g.2) with hμ
  have hkg : k = μ • g := by
    have hm : μ * (g.1 * g.1 + g.2 * g.2) = k.1 * g.1 + k.2 * g.2 := by rw [hμ, div_mul_cancel₀ _ hN.ne']
    unfold cr at hz
    have a1 : (k.1 - μ * g.1) * (g.1 * g.1 + g.2 * g.2) = 0 := by linear_combination (-g.1) * hm - g.2 * hz
    have a2 : (k.2 - μ * g.2) * (g.1 * g.1 + g.2 * g.2) = 0 := by linear_combination (-g.2) * hm + g.1 * hz
    have b1 := (mul_eq_zero.1 a1).resolve_right hN.ne'
    have b2 := (mul_eq_zero.1 a2).resolve_right hN.ne'
    ext <;> simp <;> linarith
  have hμ0 : μ ≠ 0 := by
    intro e; rw [e, zero_smul] at hkg; exact hk0 hkg
  rcases lt_or_gt_of_ne hμ0 with hneg | hpos
  · exact ⟨-μ, by linarith, by rw [neg_smul, neg_neg]; exact hkg⟩
  · exfalso
    have hs : 0 < min 1 μ := lt_min one_pos hpos
    have hne : j % n ≠ (j + 1) % n := by
      intro e
      have := h.eq_of_mod e
      exact h.ne j this
    have hn := h.hn
    have on1 : OnSide (f (j + 1)) (f (j + 1 + 1)) (f (j + 1) + min 1 μ • g) :=
      (onSide_iff _ _ _).2 ⟨min 1 μ, hs.le, min_le_left _ _, rfl⟩
    have on0 : OnSide (f j) (f (j + 1)) (f (j + 1) + min 1 μ • g) := by
      refine onSide_swap ((onSide_iff _ _ _).2 ⟨min 1 μ / μ, by positivity, ?_, ?_⟩)
      · rw [div_le_one hpos]; exact min_le_right _ _
      · rw [← hk, hkg, smul_smul, div_mul_cancel₀ _ hpos.ne']
    rcases h.disj j (j + 1) hne _ on0 on1 with ⟨-, e⟩ | ⟨e, -⟩
    · have : min 1 μ • g = 0 := by simpa using e
      rcases smul_eq_zero.1 this with h' | h'
      · exact hs.ne' h'
      · exact hg0 h'
    · have : (2 : ℕ) % n = 0 := by
        have := Nat.sub_mod_eq_zero_of_mod_eq e.symm
        rwa [show j + 1 + 1 - j = 2 by omega] at this
      rw [Nat.mod_eq_of_lt (by omega)] at this
      omega

/-- The value on the left is the same for consecutive sides. -/
theorem left_succ (h : SimpleSeq f n) {j : ℕ} {l : ℤ} (hl : HasLeft f n j l) : HasLeft f n (j + 1) l := by
  obtain ⟨l', hl'⟩ := h.exists_left' (j + 1)
  set g := f (j + 2) - f (j + 1) with hg
  set k := f j - f (j + 1) with hk
  have fin : ∀ {m : ℝ × ℝ} {a b : ℤ}, (∃ η0 > (0 : ℝ), ∀ η : ℝ, 0 < η → η ≤ η0 → wind f n (f (j + 1) + η • m) = a) →
      (∃ η0 > (0 : ℝ), ∀ η : ℝ, 0 < η → η ≤ η0 → wind f n (f (j + 1) + η • m) = b) → a = b := by
    rintro m a b ⟨η1, p1, q1⟩ ⟨η2, p2, q2⟩
    rw [← q1 (min η1 η2) (lt_min p1 p2) (min_le_left _ _), ← q2 (min η1 η2) (lt_min p1 p2) (min_le_right _ _)]
  suffices l = l' by rw [this]; exact hl'
  by_cases hz : cr g k = 0
  · obtain ⟨μ, hμ, hkg⟩ := h.no_spike j hz
    have hg0 : g ≠ 0 := fun e => h.ne (j + 1) (sub_eq_zero.1 e).symm
    have hN := normSq_pos hg0
    have c1 : 0 < cr g (-g.2, g.1) := by unfold cr; simp only; linarith
    have c2 : 0 < cr (-g.2, g.1) k := by
      rw [hk, hkg]
      unfold cr
      simp only [Prod.fst_neg, Prod.snd_neg, Prod.smul_fst, Prod.smul_snd, smul_eq_mul]
      have := mul_pos hμ hN
      linarith
    exact fin ((h.vertex_in hl (m := (-g.2, g.1)) (by rw [← hg, ← hk, hz, zero_mul])).1 c2)
      ((h.vertex_out hl' (m := (-g.2, g.1)) (by rw [← hg, ← hk, hz, zero_mul])).1 c1)
  · have c1 : cr g (-(g + k)) = -cr g k := by unfold cr; simp; ring
    have c2 : cr (-(g + k)) k = -cr g k := by unfold cr; simp; ring
    have i1 : cr g k * cr (-(g + k)) k ≤ 0 := by rw [c2]; nlinarith [mul_self_nonneg (cr g k)]
    have i2 : cr g k * cr g (-(g + k)) ≤ 0 := by rw [c1]; nlinarith [mul_self_nonneg (cr g k)]
    rcases lt_or_gt_of_ne hz with hlt | hgt
    · exact fin ((h.vertex_in hl i1).1 (by rw [c2]; linarith)) ((h.vertex_out hl' i2).1 (by rw [c1]; linarith))
    · have := fin ((h.vertex_in hl i1).2 (by rw [c2]; linarith)) ((h.vertex_out hl' i2).2 (by rw [c1]; linarith))
      linarith

/-- One value on the left of all sides. -/
theorem exists_level (h : SimpleSeq f n) : ∃ l, ∀ j, HasLeft f n j l := by
  obtain ⟨l, hl⟩ := h.exists_left' 0
  refine ⟨l, fun j => ?_⟩
  induction j with
  | zero => exact hl
  | succ j ih => exact h.left_succ ih

end SimpleSeq

end Acoular
