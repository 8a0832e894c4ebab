import Verif.Model.SyntheticEv
import Verif.Props.Synthetic
import Mathlib.LinearAlgebra.Matrix.Trace
import Mathlib.LinearAlgebra.Matrix.ConjTranspose
import Mathlib.Data.Matrix.Diagonal
import Mathlib.Algebra.Star.UnitaryStarAlgAut
import Mathlib.Analysis.Complex.Basic

/-!
# C116: eigenvalues of frequency bands
-/

namespace Acoular

open Matrix

/-- What `eigh` promises for a Hermitian matrix: the matrix is `V diag(λ) Vᴴ` with unitary `V`, the `λ` ascend. -/
def Spec.IsEigh {m : ℕ} (A : Matrix (Fin m) (Fin m) ℂ) (r : (Fin m → ℝ) × Matrix (Fin m) (Fin m) ℂ) : Prop :=
  Monotone r.1 ∧ r.2ᴴ * r.2 = 1 ∧ A = r.2 * diagonal (fun l => (r.1 l : ℂ)) * r.2ᴴ

open Spec
open scoped Classical

variable {V : Type*} [AddCommMonoid V]

/-- **C116** (part) For a band with at least one line: the sum over exactly the lines of the band. -/
theorem C116_band_partial (freqs : List ℝ) (eva : List V) (hs : freqs.Pairwise (· ≤ ·)) (hl : eva.length = freqs.length)
    (f : ℝ) (num : ℕ) (hn : 0 < num) (hb : ∃ x ∈ freqs, octaveLo f num ≤ x ∧ x < octaveHi f num) :
    syntheticEv eva freqs f num = .ok (bandSum freqs eva (octaveLo f num) (octaveHi f num)) := by
  unfold syntheticEv bandSum
  simp only
  rw [if_neg hn.ne', limits_eq f hn]
  simp only
  rw [← band_slice freqs eva hs hl, if_neg]
  intro he
  obtain ⟨x, hx, h1, h2⟩ := hb
  have e := band_slice freqs freqs hs rfl (octaveLo f num) (octaveHi f num)
  rw [he] at e
  have hnil : slice freqs (searchR freqs (octaveHi f num)) (searchR freqs (octaveHi f num)) = [] := by
    unfold slice
    rw [List.drop_eq_nil_iff, List.length_take]
    omega
  rw [hnil, eq_comm, List.map_eq_nil_iff, List.filter_eq_nil_iff] at e
  have hz : ∀ l : List ℝ, x ∈ l → (x, x) ∈ l.zip l := by
    intro l
    induction l with
    | nil => simp
    | cons a l ih =>
      intro h
      rcases List.mem_cons.1 h with rfl | h
      · simp
      · simp [ih h]
  exact e (x, x) (hz _ hx) (by simp [h1, h2])

/-- **C116** (part) For a single line up to the highest frequency: the first line at or above the frequency. -/
theorem C116_line_partial (freqs : List ℝ) (eva : List V) (hs : freqs.Pairwise (· ≤ ·)) (hl : eva.length = freqs.length)
    (f : ℝ) (hf : ∃ x ∈ freqs, f ≤ x) : syntheticEv eva freqs f 0 = .ok (lineValue freqs eva f) := by
  have hlt : searchR freqs f < freqs.length := by
    obtain ⟨x, hx, h⟩ := hf
    unfold searchR searchsorted
    rw [List.countP_eq_length_filter]
    refine List.length_filter_lt_length_iff_exists.2 ⟨x, hx, by simpa using h⟩
  unfold syntheticEv lineValue
  rw [← line_find freqs eva hs hl f]
  simp only [if_true, evaLine]
  rw [List.getElem?_eq_getElem (by omega)]
  rfl

private theorem trace_eigh {m : ℕ} {A : Matrix (Fin m) (Fin m) ℂ} {r : (Fin m → ℝ) × Matrix (Fin m) (Fin m) ℂ}
    (h : IsEigh A r) : trace A = ((∑ l, r.1 l : ℝ) : ℂ) := by
  obtain ⟨-, hu, e⟩ := h
  rw [e, Matrix.trace_mul_comm, ← Matrix.mul_assoc, hu, Matrix.one_mul, Matrix.trace_diagonal]
  push_cast
  rfl

/-- **C116** (part) The eigenvalues of a band with at least one line sum up to the power of all channels in the band: the sum of the
diagonal elements of the cross spectral matrices of its lines. -/
theorem C116_power_partial {m : ℕ} (eigh : Matrix (Fin m) (Fin m) ℂ → (Fin m → ℝ) × Matrix (Fin m) (Fin m) ℂ)
    (csm : List (Matrix (Fin m) (Fin m) ℂ)) (he : ∀ c ∈ csm, IsEigh c (eigh c)) (freqs : List ℝ)
    (hs : freqs.Pairwise (· ≤ ·)) (hl : csm.length = freqs.length) (f : ℝ) (num : ℕ) (hn : 0 < num)
    (hb : ∃ x ∈ freqs, octaveLo f num ≤ x ∧ x < octaveHi f num) :
    ∃ v, syntheticEv (calcEv eigh csm).1 freqs f num = .ok v ∧
      ((∑ l, v l : ℝ) : ℂ) = bandSum freqs (csm.map fun c => ∑ i, c i i) (octaveLo f num) (octaveHi f num) := by
  refine ⟨_, C116_band_partial freqs _ hs (by simp [calcEv, hl]) f num hn hb, ?_⟩
  generalize octaveLo f num = lo
  generalize octaveHi f num = hi
  unfold bandSum calcEv
  simp only
  clear hb hs
  induction csm generalizing freqs with
  | nil => simp
  | cons c csm ih =>
    cases freqs with
    | nil => simp at hl
    | cons x freqs =>
      have ih' := ih (fun c hc => he c (by simp [hc])) freqs (by simpa using hl)
      have ht := trace_eigh (he c (by simp))
      simp only [List.map_cons, List.zip_cons_cons, List.filter_cons]
      by_cases hx : (decide (lo ≤ x) && decide (x < hi)) = true
      · simp only [hx, if_true, List.map_cons, List.sum_cons, Pi.add_apply, Finset.sum_add_distrib]
        rw [← ih', Complex.ofReal_add, ← ht]
        rfl
      · simp only [hx]
        exact ih'

/-- **C116** The eigenvalues of a band ascend, whatever is asked for. -/
theorem C116_ascending {m : ℕ} (eigh : Matrix (Fin m) (Fin m) ℂ → (Fin m → ℝ) × Matrix (Fin m) (Fin m) ℂ)
    (csm : List (Matrix (Fin m) (Fin m) ℂ)) (he : ∀ c ∈ csm, IsEigh c (eigh c)) (freqs : List ℝ) (f : ℝ) (num : ℕ)
    (v : Fin m → ℝ) (h : syntheticEv (calcEv eigh csm).1 freqs f num = .ok v) : Monotone v := by
  have hm : ∀ w ∈ (calcEv eigh csm).1, Monotone w := by
    intro w hw
    simp only [calcEv, List.mem_map] at hw
    obtain ⟨c, hc, rfl⟩ := hw
    exact (he c hc).1
  have hsum : ∀ l : List (Fin m → ℝ), (∀ w ∈ l, Monotone w) → Monotone l.sum := by
    intro l
    induction l with
    | nil => intro _ a b _; simp
    | cons w l ih =>
      intro hl
      rw [List.sum_cons]
      exact (hl w (by simp)).add (ih fun w hw => hl w (by simp [hw]))
  have hline : ∀ i : ℕ, evaLine (calcEv eigh csm).1 i = .ok v → Monotone v := by
    intro i hi
    unfold evaLine at hi
    cases hc : (calcEv eigh csm).1[i]? with
    | none => rw [hc] at hi; cases hi
    | some w =>
      rw [hc] at hi
      cases hi
      exact hm v (List.mem_of_getElem? hc)
  unfold syntheticEv at h
  simp only at h
  split at h
  · exact hline _ h
  · split at h
    · exact hline _ h
    · cases h
      refine hsum _ fun w hw => hm w ?_
      unfold slice at hw
      exact List.mem_of_mem_take (List.mem_of_mem_drop hw)

/-- A band without lines gets the values of the next line above instead of zeros. -/
theorem C116_empty_band_violated (freqs : List ℝ) (eva : List V) (hs : freqs.Pairwise (· ≤ ·)) (hl : eva.length = freqs.length)
    (f : ℝ) (hf : 0 ≤ f) (num : ℕ) (hn : 0 < num) (hb : ∀ x ∈ freqs, ¬ (octaveLo f num ≤ x ∧ x < octaveHi f num))
    (ha : ∃ x ∈ freqs, octaveHi f num ≤ x) :
    syntheticEv eva freqs f num = .ok (lineValue freqs eva (octaveHi f num)) ∧
      bandSum freqs eva (octaveLo f num) (octaveHi f num) = 0 := by
  have hle : octaveLo f num ≤ octaveHi f num := by
    apply mul_le_mul_of_nonneg_left _ hf
    apply Real.rpow_le_rpow_of_exponent_le one_le_two
    have : (0 : ℝ) ≤ 1 / (2 * num) := by positivity
    linarith
  have heq : searchR freqs (octaveLo f num) = searchR freqs (octaveHi f num) := by
    unfold searchR searchsorted
    refine List.countP_congr fun x hx => ?_
    simp only [decide_eq_true_eq]
    constructor
    · intro h; linarith
    · intro h
      by_contra hc
      exact hb x hx ⟨not_lt.1 hc, h⟩
  constructor
  · rw [← C116_line_partial freqs eva hs hl _ ha]
    unfold syntheticEv
    simp only
    rw [if_neg hn.ne', limits_eq f hn]
    simp only
    rw [if_pos heq, heq, if_pos trivial]
  · unfold bandSum
    rw [List.filter_eq_nil_iff.2]
    · simp
    · rintro ⟨a, b⟩ hab
      have := hb a (List.of_mem_zip hab).1
      simpa using this

/-- Beyond the highest line the request fails, for single lines and for bands. -/
theorem C116_beyond_violated (freqs : List ℝ) (eva : List V) (hl : eva.length = freqs.length) (f : ℝ)
    (num : ℕ) (hb : ∀ x ∈ freqs, x < if num = 0 then f else octaveLo f num) (hf : 0 ≤ f) :
    syntheticEv eva freqs f num = .error .indexError := by
  have hall : ∀ v : ℝ, (∀ x ∈ freqs, x < v) → searchR freqs v = freqs.length := by
    intro v h
    unfold searchR searchsorted
    rw [List.countP_eq_length]
    intro x hx
    simpa using h x hx
  unfold syntheticEv
  simp only
  by_cases hn : num = 0
  · rw [if_pos hn] at hb ⊢
    rw [hall f hb, evaLine, List.getElem?_eq_none (by omega)]
  · rw [if_neg hn] at hb ⊢
    have hle : octaveLo f num ≤ octaveHi f num := by
      apply mul_le_mul_of_nonneg_left _ hf
      apply Real.rpow_le_rpow_of_exponent_le one_le_two
      have : (0 : ℝ) ≤ 1 / (2 * num) := by positivity
      linarith
    rw [limits_eq f (Nat.pos_of_ne_zero hn)]
    simp only
    rw [hall _ hb, hall (octaveHi f num) fun x hx => lt_of_lt_of_le (hb x hx) hle, if_pos rfl, evaLine, List.getElem?_eq_none (by omega)]

/-- A diagonal matrix with ascending real entries meets the contract of `eigh`. -/
example : IsEigh (diagonal ![(1 : ℂ), 2]) (![1, 2], 1) := by
  refine ⟨?_, by simp, ?_⟩
  · intro a b h
    fin_cases a <;> fin_cases b <;> simp_all
  · rw [Matrix.one_mul, Matrix.conjTranspose_one, Matrix.mul_one]
    congr 1
    funext l
    fin_cases l <;> simp

/-- The octave band around 100 Hz has the line at 100 Hz. -/
example : ∃ x ∈ [(0 : ℝ), 100, 200], octaveLo 100 1 ≤ x ∧ x < octaveHi 100 1 := by
  refine ⟨100, by simp, ?_, ?_⟩
  · unfold octaveLo
    have : (2 : ℝ) ^ (-(1 / (2 * ((1 : ℕ) : ℝ))) : ℝ) ≤ 1 := Real.rpow_le_one_of_one_le_of_nonpos one_le_two (by norm_num)
    linarith
  · unfold octaveHi
    have : (1 : ℝ) < 2 ^ ((1 / (2 * ((1 : ℕ) : ℝ))) : ℝ) := Real.one_lt_rpow one_lt_two (by norm_num)
    linarith

private theorem eighEx : IsEigh (diagonal ![(1 : ℂ), 2]) (![1, 2], 1) := by
  refine ⟨?_, by simp, ?_⟩
  · intro a b h
    fin_cases a <;> fin_cases b <;> simp_all
  · rw [Matrix.one_mul, Matrix.conjTranspose_one, Matrix.mul_one]
    congr 1
    funext l
    fin_cases l <;> simp

private theorem bandEx : ∃ x ∈ [(0 : ℝ), 100, 200], octaveLo 100 1 ≤ x ∧ x < octaveHi 100 1 := by
  refine ⟨100, by simp, ?_, ?_⟩
  · unfold octaveLo
    have : (2 : ℝ) ^ (-(1 / (2 * ((1 : ℕ) : ℝ))) : ℝ) ≤ 1 := Real.rpow_le_one_of_one_le_of_nonpos one_le_two (by norm_num)
    linarith
  · unfold octaveHi
    have : (1 : ℝ) < 2 ^ ((1 / (2 * ((1 : ℕ) : ℝ))) : ℝ) := Real.one_lt_rpow one_lt_two (by norm_num)
    linarith

/-- The hypotheses of `C116_band_partial` are met: -/
example := C116_band_partial [0, 100, 200] [1, 2, (3 : ℝ)] (by norm_num) rfl 100 1 (by decide) bandEx

/-- The hypotheses of `C116_line_partial` are met: -/
example := C116_line_partial [0, 100, 200] [1, 2, (3 : ℝ)] (by norm_num) rfl 150 ⟨200, by simp, by norm_num⟩

/-- The hypotheses of `C116_power_partial` are met: -/
example := C116_power_partial (fun _ => (![1, 2], 1)) (List.replicate 3 (diagonal ![(1 : ℂ), 2])) (fun c hc => by
  rw [List.eq_of_mem_replicate hc]; exact eighEx) [0, 100, 200] (by norm_num) rfl 100 1 (by decide) bandEx

/-- The hypotheses of `C116_ascending` are met: -/
example := fun v h => C116_ascending (fun _ => (![1, 2], 1)) (List.replicate 3 (diagonal ![(1 : ℂ), 2])) (fun c hc => by
  rw [List.eq_of_mem_replicate hc]; exact eighEx) [0, 100, 200] 100 1 v h

end Acoular
