import Verif.Props.ExactSources

/-!
# Property theorems: CLEAN with several sources (C28, C128)
-/

namespace Acoular

open Matrix Complex Spec

section

set_option linter.unusedSectionVars false

variable {K : Type*} [Field K] [LinearOrder K] [IsStrictOrderedRing K] {g : ℕ}

/-- What is left of the powers `x` after `k` steps. -/
private def leftOver (x : Fin g → K) (damp : K) (R : ℕ → Fin g → K) (pos : ℕ → Fin g) (k : ℕ) (s : Fin g) : K :=
  x s - ∑ j ∈ (Finset.range k).filter (fun j => pos j = s), damp * R j (pos j)

private theorem leftOver_succ (x : Fin g → K) (damp : K) (R : ℕ → Fin g → K) (pos : ℕ → Fin g) (k : ℕ) (s : Fin g) :
    leftOver x damp R pos (k + 1) s = leftOver x damp R pos k s - if s = pos k then damp * R k (pos k) else 0 := by
  unfold leftOver
  rw [Finset.range_add_one, Finset.filter_insert]
  by_cases h : pos k = s
  · rw [if_pos h, if_pos h.symm, Finset.sum_insert (by simp)]
    ring
  · rw [if_neg h, if_neg (fun h' => h h'.symm), sub_zero]

/-- What holds for the rest after each step. -/
private structure RestInv (A : Fin g → Fin g → K) (S : Finset (Fin g)) (R r : Fin g → K) : Prop where
  nonneg : ∀ s, 0 ≤ r s
  off : ∀ s, s ∉ S → r s = 0
  map : ∀ p, R p = applyPsf A r p

private theorem map_split (A : Fin g → Fin g → K) (S : Finset (Fin g)) (r : Fin g → K) (h : ∀ s, s ∉ S → r s = 0) (p : Fin g) :
    applyPsf A r p = ∑ s ∈ S, A p s * r s := by
  unfold applyPsf
  symm
  apply Finset.sum_subset (Finset.subset_univ S)
  intro s _ hs
  rw [h s hs, mul_zero]

/-- One step: the next position is one of a source unless nothing is left, the rest stays non-negative and its sum is reduced. -/
private theorem rest_step {A : Fin g → Fin g → K} {S : Finset (Fin g)} {R r : Fin g → K} (hA : ∀ p q, 0 ≤ A p q) (hd : ∀ p, A p p = 1)
    (hout : ∀ p, p ∉ S → ∑ s ∈ S, A p s < 1) {q damp : K} (hin : ∀ s ∈ S, ∑ t ∈ S.erase s, A s t ≤ q) (hd0 : 0 < damp) (hdq : damp + q ≤ 1)
    (h : RestInv A S R r) {pos : Fin g} (hp : IsFirstMax R pos) :
    ((∀ s, r s = 0) ∧ R pos = 0) ∨ (pos ∈ S ∧ damp * R pos ≤ r pos ∧ 0 < R pos ∧ ∑ s, r s ≤ S.card * R pos) := by
  by_cases h0 : ∀ s, r s = 0
  · left
    refine ⟨h0, ?_⟩
    rw [h.map]; unfold applyPsf
    exact Finset.sum_eq_zero fun s _ => by rw [h0, mul_zero]
  right
  push Not at h0
  obtain ⟨s0, hs0⟩ := h0
  have hs0S : s0 ∈ S := by
    by_contra hn; exact hs0 (h.off s0 hn)
  obtain ⟨t, htS, htmax⟩ := Finset.exists_max_image S r ⟨s0, hs0S⟩
  have hM : 0 < r t := lt_of_lt_of_le (lt_of_le_of_ne (h.nonneg s0) (Ne.symm hs0)) (htmax s0 hs0S)
  have hRS : ∀ s ∈ S, R s = r s + ∑ u ∈ S.erase s, A s u * r u := by
    intro s hs
    rw [h.map, map_split A S r h.off, ← Finset.add_sum_erase S _ hs, hd, one_mul]
  have hover : ∀ s ∈ S, ∑ u ∈ S.erase s, A s u * r u ≤ q * r t := by
    intro s hs
    refine le_trans ?_ (mul_le_mul_of_nonneg_right (hin s hs) hM.le)
    rw [Finset.sum_mul]
    exact Finset.sum_le_sum fun u hu => mul_le_mul_of_nonneg_left (htmax u (Finset.mem_of_mem_erase hu)) (hA s u)
  have hRt : r t ≤ R pos := by
    refine le_trans ?_ (hp.1 t)
    rw [hRS t htS]
    have : 0 ≤ ∑ u ∈ S.erase t, A t u * r u := Finset.sum_nonneg fun u _ => mul_nonneg (hA _ _) (h.nonneg u)
    linarith
  have hposS : pos ∈ S := by
    by_contra hn
    have h1 : R pos ≤ (∑ s ∈ S, A pos s) * r t := by
      rw [h.map, map_split A S r h.off, Finset.sum_mul]
      exact Finset.sum_le_sum fun u hu => mul_le_mul_of_nonneg_left (htmax u hu) (hA _ _)
    have h2 := mul_lt_mul_of_pos_right (hout pos hn) hM
    linarith
  have hq0 : 0 ≤ q := le_trans (Finset.sum_nonneg fun u _ => hA pos u) (hin pos hposS)
  have h3 := hRS pos hposS
  have h4 := hover pos hposS
  refine ⟨hposS, ?_, lt_of_lt_of_le hM hRt, ?_⟩
  · -- r pos ≥ (1 - q) r t
    have h5 : (1 - damp) * ((1 - q) * r t) ≤ (1 - damp) * r pos := by
      apply mul_le_mul_of_nonneg_left _ (by linarith)
      linarith
    have h6 : damp * (∑ u ∈ S.erase pos, A pos u * r u) ≤ damp * (q * r t) := mul_le_mul_of_nonneg_left h4 hd0.le
    rw [h3]
    have h7 : 0 ≤ (1 - damp - q) * r t := mul_nonneg (by linarith) hM.le
    nlinarith
  · have h5 : ∑ s, r s = ∑ s ∈ S, r s := by
      symm
      exact Finset.sum_subset (Finset.subset_univ S) fun s _ hs => h.off s hs
    rw [h5]
    calc ∑ s ∈ S, r s ≤ ∑ _s ∈ S, R pos := Finset.sum_le_sum fun s hs => (htmax s hs).trans hRt
      _ = S.card * R pos := by rw [Finset.sum_const, nsmul_eq_mul]

end

section

variable {K : Type*} [Field K] [LinearOrder K] [IsStrictOrderedRing K] {g : ℕ}

/-- **C28.** Several sources at the points `S` whose point spread functions are one at the source, add up to less than one at every other point and,
at the points of the sources, to at most `q ≤ 1 - damp` beside the own one.  Then CLEAN finds power at these points only, never more than there is,
and what is missing decreases at least with the factor `1 - damp/|S|` with each iteration. -/
theorem C28_several (A : Fin (g + 1) → Fin (g + 1) → K) (hA : ∀ p q, 0 ≤ A p q) (hd : ∀ p, A p p = 1) (x : Fin (g + 1) → K) (hx : ∀ p, 0 ≤ x p)
    (S : Finset (Fin (g + 1))) (hS : ∀ p, p ∉ S → x p = 0) (hout : ∀ p, p ∉ S → ∑ s ∈ S, A p s < 1) (q damp : K)
    (hin : ∀ s ∈ S, ∑ t ∈ S.erase s, A s t ≤ q) (hd0 : 0 < damp) (hdq : damp + q ≤ 1) (nIter : ℕ) (hn : 1 ≤ nIter) :
    let c := (cleanCalc A damp nIter false (applyPsf A x)).clean
    (∀ p, p ∉ S → c p = 0) ∧ (∀ p, 0 ≤ c p ∧ c p ≤ x p) ∧ ∑ p, (x p - c p) ≤ (1 - damp / S.card) ^ nIter * ∑ p, x p := by
  intro c
  obtain ⟨R, pos, N, hrun, hR0, hN1, hN2, -, -, hc, -, hstop⟩ := C28_run A damp nIter false (applyPsf A x)
  set r := leftOver x damp R pos with hr
  have hstep : ∀ k s, r (k + 1) s = r k s - if s = pos k then damp * R k (pos k) else 0 := leftOver_succ x damp R pos
  have hinv : ∀ k, RestInv A S (R k) (r k) := by
    intro k
    induction k with
    | zero =>
      have e : r 0 = x := by funext s; simp [hr, leftOver]
      rw [e]
      exact ⟨hx, hS, fun p => by rw [hR0]; simp [cleanStart]⟩
    | succ k ih =>
      have hs := rest_step hA hd hout hin hd0 hdq ih (hrun.pos_max k)
      have hz : (∀ s, r k s = 0) ∧ R k (pos k) = 0 → ∀ s, r (k + 1) s = r k s := by
        rintro ⟨-, h2⟩ s
        rw [hstep, h2]; simp
      refine ⟨fun s => ?_, fun s hs' => ?_, fun p => ?_⟩
      · rcases hs with hs | ⟨_, h2, _, _⟩
        · rw [hz hs]; exact ih.nonneg s
        · rw [hstep]
          split
          · rename_i h; subst h; linarith
          · rw [sub_zero]; exact ih.nonneg s
      · rcases hs with hs | ⟨h1, _, _, _⟩
        · rw [hz hs]; exact ih.off s hs'
        · rw [hstep, if_neg (by rintro rfl; exact hs' h1), sub_zero]; exact ih.off s hs'
      · rw [hrun.step, ih.map]
        unfold applyPsf
        have : ∀ u, A p u * r (k + 1) u = A p u * r k u - if u = pos k then A p (pos k) * (damp * R k (pos k)) else 0 := by
          intro u
          rw [hstep]
          split
          · rename_i h; subst h; ring
          · ring
        simp only [this]
        rw [Finset.sum_sub_distrib, Finset.sum_ite_eq' Finset.univ (pos k)]
        simp
  have hcases := fun k => rest_step hA hd hout hin hd0 hdq (hinv k) (hrun.pos_max k)
  have hRpos : ∀ k, 0 ≤ R k (pos k) := by
    intro k
    rcases hcases k with h | h
    · exact h.2.ge
    · exact h.2.2.1.le
  have hcr : ∀ s, x s - c s = r N s := by
    intro s; rw [hr]; unfold leftOver; rw [← hc s]
  have hq0 : 0 < S.card → 0 ≤ 1 - damp / S.card := by
    intro hcard
    obtain ⟨s, hs⟩ := Finset.card_pos.1 hcard
    have hq0 : 0 ≤ q := le_trans (Finset.sum_nonneg fun u _ => hA s u) (hin s hs)
    have h1 : (1 : K) ≤ S.card := by exact_mod_cast hcard
    have : damp / S.card ≤ 1 := (div_le_one (by linarith)).2 (by linarith)
    linarith
  have hfac : 0 ≤ 1 - damp / (S.card : K) := by
    rcases Nat.eq_zero_or_pos S.card with h | h
    · rw [h]; simp
    · exact hq0 h
  have hrate : ∀ k, ∑ s, r k s ≤ (1 - damp / S.card) ^ k * ∑ p, x p := by
    intro k
    induction k with
    | zero => simp [hr, leftOver]
    | succ k ih =>
      have e : ∑ s, r (k + 1) s = ∑ s, r k s - damp * R k (pos k) := by
        simp only [hstep]
        rw [Finset.sum_sub_distrib, Finset.sum_ite_eq' Finset.univ (pos k)]
        simp
      rcases hcases k with ⟨h1, h2⟩ | ⟨h1, h2, h3, h4⟩
      · rw [e, h2, mul_zero, sub_zero, Finset.sum_eq_zero fun s _ => h1 s]
        exact mul_nonneg (pow_nonneg hfac _) (Finset.sum_nonneg fun p _ => hx p)
      · have hcard : (0 : K) < S.card := by exact_mod_cast Finset.card_pos.2 ⟨_, h1⟩
        have h5 : ∑ s, r (k + 1) s ≤ (1 - damp / S.card) * ∑ s, r k s := by
          rw [e]
          have : damp / S.card * ∑ s, r k s ≤ damp / S.card * (S.card * R k (pos k)) :=
            mul_le_mul_of_nonneg_left h4 (by positivity)
          have h6 : damp / S.card * (S.card * R k (pos k)) = damp * R k (pos k) := by field_simp
          linarith
        refine h5.trans ?_
        rw [pow_succ', mul_assoc]
        exact mul_le_mul_of_nonneg_left ih hfac
  refine ⟨fun p hp => ?_, fun p => ⟨?_, ?_⟩, ?_⟩
  · have h1 := hcr p
    rw [(hinv N).off p hp, hS p hp] at h1
    linarith
  · show 0 ≤ (cleanCalc A damp nIter false (applyPsf A x)).clean p
    rw [hc]
    exact Finset.sum_nonneg fun k _ => mul_nonneg hd0.le (hRpos k)
  · have := (hinv N).nonneg p
    rw [← hcr] at this
    linarith
  · simp only [hcr]
    rcases Nat.lt_or_ge N nIter with hlt | hge
    · -- stopped early: nothing is left
      have hzero : ∀ s, r N s = 0 := by
        have hmono : (∀ s, r (N - 1) s = 0) → ∀ s, r N s = 0 := by
          intro h s
          have hN' : N = (N - 1) + 1 := by omega
          have h0 : R (N - 1) (pos (N - 1)) = 0 := by
            rw [(hinv (N - 1)).map]; unfold applyPsf
            exact Finset.sum_eq_zero fun u _ => by rw [h u, mul_zero]
          rw [hN', hstep, h, h0]; simp
        rcases hcases (N - 1) with ⟨h1, _⟩ | ⟨h1, h2, h3, h4⟩
        · exact hmono h1
        · have hns := hstop (by exact_mod_cast hlt)
          have hRn : ∀ k p, 0 ≤ R k p := by
            intro k p
            rw [(hinv k).map]
            exact Finset.sum_nonneg fun u _ => mul_nonneg (hA _ _) ((hinv k).nonneg u)
          have hdec : ∑ i, |R N i| < ∑ i, |R (N - 1) i| := by
            have hN' : N = (N - 1) + 1 := by omega
            have hs' : ∀ i, R N i = R (N - 1) i - A i (pos (N - 1)) * (damp * R (N - 1) (pos (N - 1))) := by
              intro i; conv_lhs => rw [hN']
              exact hrun.step (N - 1) i
            apply Finset.sum_lt_sum
            · intro i _
              rw [abs_of_nonneg (hRn N i), abs_of_nonneg (hRn (N - 1) i), hs']
              have := mul_nonneg (hA i (pos (N - 1))) (mul_nonneg hd0.le h3.le)
              linarith
            · refine ⟨pos (N - 1), Finset.mem_univ _, ?_⟩
              rw [abs_of_nonneg (hRn N _), abs_of_nonneg (hRn (N - 1) _), hs', hd, one_mul]
              have := mul_pos hd0 h3
              linarith
          have hno : ¬ ∃ i, 0 < R N i := fun h => hns ⟨hdec, h⟩
          intro s
          by_contra hne
          apply hno
          refine ⟨s, ?_⟩
          rw [(hinv N).map]
          unfold applyPsf
          have h5 : 0 < A s s * r N s := by rw [hd, one_mul]; exact lt_of_le_of_ne ((hinv N).nonneg s) (Ne.symm hne)
          exact lt_of_lt_of_le h5 (Finset.single_le_sum (f := fun j => A s j * r N j)
            (fun u _ => mul_nonneg (hA _ _) ((hinv N).nonneg u)) (Finset.mem_univ s))
      rw [Finset.sum_eq_zero fun s _ => hzero s]
      exact mul_nonneg (pow_nonneg hfac _) (Finset.sum_nonneg fun p _ => hx p)
    · have : N = nIter := by
        have h1 : (N : ℤ) ≤ nIter := by
          rw [max_eq_right (by exact_mod_cast hn)] at hN2; exact hN2
        have h2 : N ≤ nIter := by exact_mod_cast h1
        omega
      rw [this]
      exact hrate nIter

end

/-- **C128.** CLEAN without diagonal removal with a formulation of correct level and several incoherent sources whose point spread functions
overlap little: power is found at the sources only, never more than there is, and the result approaches the powers with each iteration. Missing: stronger
overlap, for which CLEAN finds power elsewhere. -/
theorem C128_clean_several_partial {n g : ℕ} (geo : SteerGeo n (g + 1)) (hg : Apart geo) (hst : geo.st = .inverse ∨ geo.st = .trueLevel)
    (norm : ℝ) (x : Fin (g + 1) → ℝ) (hx : ∀ p, 0 ≤ x p) (S : Finset (Fin (g + 1))) (hS : ∀ p, p ∉ S → x p = 0)
    (hout : ∀ p, p ∉ S → ∑ s ∈ S, psfOf geo p s < 1) (q damp : ℝ) (hin : ∀ s ∈ S, ∑ t ∈ S.erase s, psfOf geo s t ≤ q) (hd0 : 0 < damp)
    (hdq : damp + q ≤ 1) (nIter : ℕ) (hn : 1 ≤ nIter) :
    let c := (cleanCalc (psfOf geo) damp nIter false (mapOf geo false norm (incoherentCsm (monopoles geo) x))).clean
    (∀ p, p ∉ S → c p = 0) ∧ (∀ p, 0 ≤ c p ∧ c p ≤ x p) ∧ ∑ p, (x p - c p) ≤ (1 - damp / S.card) ^ nIter * ∑ p, x p := by
  have hy : mapOf geo false norm (incoherentCsm (monopoles geo) x) = applyPsf (psfOf geo) x :=
    funext fun p => C128_map geo hg norm x p
  rw [hy]
  exact C28_several (psfOf geo) (fun p j => C26_psf_nonneg _ _ _ _ _ _ (hg.r0 p) (hg.rm p) hg.mics)
    (fun i => C26_calibrated _ hst _ _ _ (hg.r0 i) (hg.rm i) hg.mics) x hx S hS hout q damp hin hd0 hdq nIter hn

/-- The hypotheses of `C28_several` are met: two of three points have sources. -/
example := C28_several (K := ℚ) (g := 2) ![![1, 1/4, 1/8], ![1/3, 1, 1/3], ![1/8, 1/4, 1]] (by decide +kernel) (by decide +kernel) ![3, 0, 5]
  (by decide +kernel) {0, 2} (by decide +kernel) (by decide +kernel) (1 / 8) (3 / 5) (by decide +kernel) (by decide +kernel) (by decide +kernel) 10
  (by decide)

/-- The hypotheses of `C128_clean_several_partial` are met: sources at two points. -/
example := C128_clean_several_partial (twoPoints .trueLevel) (twoPoints_apart _) (.inr rfl) 0 ![1, 3] (by intro p; fin_cases p <;> simp) Finset.univ
  (fun p h => absurd (Finset.mem_univ p) h) (fun p h => absurd (Finset.mem_univ p) h) (4 / 25) (3 / 5)
  (by
    intro p _
    fin_cases p
    · rw [show Finset.univ.erase ((⟨0, by decide⟩ : Fin 2)) = {1} from by decide, Finset.sum_singleton, psf_level]; norm_num
    · rw [show Finset.univ.erase ((⟨1, by decide⟩ : Fin 2)) = {0} from by decide, Finset.sum_singleton, psf_level]; norm_num)
  (by norm_num) (by norm_num) 10 (by norm_num)

end Acoular
