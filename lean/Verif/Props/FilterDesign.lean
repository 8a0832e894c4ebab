import Verif.Model.FilterDesign
import Verif.Props.Filter
import Mathlib.Analysis.Real.Pi.Bounds
import Mathlib.Tactic.Linarith
import Mathlib.Tactic.FieldSimp
import Mathlib.Tactic.Positivity

/-!
# C89 – C91: octave filters, filter banks, exponential averaging
-/

namespace Acoular

open Real Spec

/-! ## C89: the filters of a filter bank belong to its settings -/

/-- **C89** (part) A filter bank that has not been read applies the filters of its settings, whatever was set before. -/
theorem C89_first_partial (b : OctBank) (h0 : b.cache = none) (acts : List OctAct) (ha : OctAct.readSos ∉ acts) :
    (acts.foldl octAct b).applied = .ok (acts.foldl octAct b).design := by
  have hc : ∀ (acts : List OctAct) (b : OctBank), b.cache = none → OctAct.readSos ∉ acts → (acts.foldl octAct b).cache = none := by
    intro acts
    induction acts with
    | nil => exact fun b h _ => h
    | cons a acts ih =>
      intro b h hn
      refine ih _ ?_ fun k => hn (by simp [k])
      cases a <;> first | exact h | exact absurd (by simp) hn
  unfold OctBank.applied OctBank.sos
  rw [hc acts b h0 ha]
  simp [OctBank.design]

/-- The hypotheses of `C89_first_partial` are met: -/
example := C89_first_partial ⟨21, 27, .octave, 48000, none⟩ rfl [.setHband 24, .setHband 30] (by simp)

/-- Once read, the filters stay the same for ever. -/
theorem C89_frozen (b : OctBank) (acts : List OctAct) :
    (acts.foldl octAct (octAct b .readSos)).sos = b.sos := by
  have hc : ∀ (acts : List OctAct) (b : OctBank) (v : List (ℤ × Fraction × ℚ)), b.cache = some v →
      (acts.foldl octAct b).cache = some v := by
    intro acts
    induction acts with
    | nil => exact fun b v h => h
    | cons a acts ih =>
      intro b v h
      refine ih _ v ?_
      cases a <;> first | exact h | (show some (b.cache.getD b.design) = some v; rw [h]; rfl)
  unfold OctBank.sos
  rw [hc acts _ _ rfl]
  rfl

/-- So after a change of the settings the wrong filters are applied: here those for the bands 21 and 24 at 48 kHz in place
of those for the bands 30 and 33 at 44.1 kHz. -/
theorem C89_stale_violated : ∃ (b : OctBank) (acts : List OctAct),
    b.cache = none ∧ (acts.foldl octAct b).design = [(30, .octave, 44100), (33, .octave, 44100)] ∧
    (acts.foldl octAct b).applied = .ok [(21, .octave, 48000), (24, .octave, 48000)] := by
  refine ⟨⟨21, 27, .octave, 48000, none⟩, [.readSos, .setLband 30, .setHband 36, .setFs 44100], rfl, ?_, ?_⟩ <;>
    decide +kernel

/-- … or the result ends with an error, if there are more bands than before. -/
theorem C89_index_violated : ∃ (b : OctBank) (acts : List OctAct),
    b.cache = none ∧ (acts.foldl octAct b).applied = .error .indexError := by
  refine ⟨⟨21, 27, .octave, 48000, none⟩, [.readSos, .setFraction .third], rfl, ?_⟩
  decide +kernel

/-- The filters applied are always the first ones of those designed when the bank was first read, as many as the present
settings have bands. -/
theorem C89_applied (b : OctBank) (acts : List OctAct) :
    let b' := acts.foldl octAct (octAct b .readSos)
    let k := (bandNumbers b'.lband b'.hband b'.fraction).length
    b'.applied = if k ≤ b.sos.length then .ok (b.sos.take k) else .error .indexError := by
  intro b' k
  have h : b'.sos = b.sos := C89_frozen b acts
  unfold OctBank.applied
  rw [h]

/-- … so with fewer bands than before, only as many filters are applied. -/
example : let b : OctBank := ⟨21, 27, .octave, 48000, none⟩
    ([OctAct.setHband 24].foldl octAct (octAct b .readSos)).applied = .ok [(21, .octave, 48000)] := by
  decide +kernel

/-! ## C90: band edges -/

theorem octaveHalf_bounds (f : Fraction) : 1 < octaveHalf f ∧ octaveHalf f ≤ √2 := by
  unfold octaveHalf
  cases f
  · simp only [Fraction.val, Nat.cast_one, mul_one]
    rw [← Real.sqrt_eq_rpow]
    exact ⟨by rw [Real.lt_sqrt] <;> norm_num, le_rfl⟩
  · constructor
    · exact Real.one_lt_rpow (by norm_num) (by norm_num [Fraction.val])
    · rw [Real.sqrt_eq_rpow]
      exact Real.rpow_le_rpow_of_exponent_le (by norm_num) (by norm_num [Fraction.val])

theorem alpha_bounds (a β : ℝ) (ha : 1 < a) (hβ : 2 / (a - 1 / a) < β) :
    1 < (1 + √(1 + β * β)) / β ∧ (1 + √(1 + β * β)) / β < a := by
  have ha0 : 0 < a := by linarith
  have hd : 0 < a - 1 / a := by
    rw [sub_pos, div_lt_iff₀ ha0]; nlinarith
  have hβ0 : 0 < β := lt_trans (by positivity) hβ
  have h1 : 2 * a < (a ^ 2 - 1) * β := by
    rw [div_lt_iff₀ hd] at hβ
    have : β * (a - 1 / a) * a = (a ^ 2 - 1) * β := by field_simp
    nlinarith
  constructor
  · rw [lt_div_iff₀ hβ0, one_mul]
    have : β < √(1 + β * β) := by rw [Real.lt_sqrt hβ0.le]; nlinarith
    linarith
  · rw [div_lt_iff₀ hβ0]
    have hab : 0 < a * β - 1 := by
      have : (a ^ 2 - 1) * β < a ^ 2 * β := by nlinarith
      have : 2 * a < a * (a * β) := by nlinarith
      have : 2 < a * β := lt_of_mul_lt_mul_left (by linarith) ha0.le
      linarith
    have : √(1 + β * β) < a * β - 1 := by
      rw [Real.sqrt_lt' hab]
      nlinarith
    linarith

theorem octaveAlpha_bounds (order : ℕ) (ho : 0 < order) (f : Fraction) :
    1 < octaveAlpha order f ∧ octaveAlpha order f < octaveHalf f := by
  have ha := (octaveHalf_bounds f).1
  have ho' : (1 : ℝ) ≤ order := by exact_mod_cast ho
  set x : ℝ := π / (2 * order) with hx
  have hx0 : 0 < x := by positivity
  have hxp : x < π := by
    rw [hx, div_lt_iff₀ (by positivity)]
    nlinarith [pi_pos]
  have hs : 0 < sin x := sin_pos_of_pos_of_lt_pi hx0 hxp
  have hsx : sin x < x := sin_lt hx0
  have hd : 0 < octaveHalf f - 1 / octaveHalf f := by
    rw [sub_pos, div_lt_iff₀ (by linarith)]; nlinarith
  refine alpha_bounds (octaveHalf f) (2 * x / sin x / (octaveHalf f - 1 / octaveHalf f)) ha ?_
  refine div_lt_div_of_pos_right ?_ hd
  rw [lt_div_iff₀ hs]
  linarith

/-- **C90** (part) If an octave or third octave filter accepts the band, its edges are valid for the design, lie within
the nominal band, enclose the centre, and the centre is their geometric mean. -/
theorem C90_edges_partial (fs band : ℝ) (hfs : 0 < fs) (hb : 0 < band) (order : ℕ) (ho : 0 < order) (f : Fraction)
    (d : BandDesign) (h : filtOctaveDesign fs band order f = .ok d) :
    let fr := 2 * band / fs
    0 < d.lower ∧ fr / octaveHalf f < d.lower ∧ d.lower < fr ∧ fr < d.upper ∧ d.upper < fr * octaveHalf f ∧ d.upper < 1 ∧
      d.lower * d.upper = fr ^ 2 := by
  intro fr
  have hfr : 0 < fr := by positivity
  obtain ⟨h1, h2⟩ := octaveAlpha_bounds order ho f
  obtain ⟨h3, h4⟩ := octaveHalf_bounds f
  unfold filtOctaveDesign at h
  simp only at h
  split at h
  · simp at h
  · rename_i hle
    have hle' : fr ≤ 1 / √2 := not_lt.1 hle
    obtain rfl := (Except.ok.inj h).symm
    have hα : 0 < octaveAlpha order f := by linarith
    refine ⟨by positivity, ?_, ?_, ?_, ?_, ?_, ?_⟩
    · exact div_lt_div_of_pos_left hfr hα h2
    · exact div_lt_self hfr h1
    · show fr < fr * _
      nlinarith
    · exact mul_lt_mul_of_pos_left h2 hfr
    · calc fr * octaveAlpha order f < fr * octaveHalf f := mul_lt_mul_of_pos_left h2 hfr
        _ ≤ fr * √2 := mul_le_mul_of_nonneg_left h4 hfr.le
        _ ≤ 1 / √2 * √2 := mul_le_mul_of_nonneg_right hle' (by positivity)
        _ = 1 := by field_simp
    · show fr / octaveAlpha order f * (fr * octaveAlpha order f) = fr ^ 2
      field_simp

/-- The hypotheses of `C90_edges_partial` are met: -/
example (d : BandDesign) := C90_edges_partial 48000 1000 (by norm_num) (by norm_num) 3 (by decide) .third d

/-- A band is refused exactly if its centre is above `fs / (2 √2)`. -/
theorem C90_refused (fs band : ℝ) (hfs : 0 < fs) (order : ℕ) (f : Fraction) :
    filtOctaveDesign fs band order f = .error .valueError ↔ fs / (2 * √2) < band := by
  unfold filtOctaveDesign
  simp only
  have e : 2 * band / fs > 1 / √2 ↔ fs / (2 * √2) < band := by
    have : 0 < √2 := by positivity
    rw [gt_iff_lt, div_lt_div_iff₀ this hfs, div_lt_iff₀ (by positivity)]
    constructor <;> intro h <;> linarith
  split
  · simp; exact e.1 ‹_›
  · simp; rw [← not_lt]; exact fun h => absurd (e.2 h) ‹_›

/-- The zero phase filter accepts bands whose upper edge, after the correction of the bandwidth, is beyond half the
sampling frequency. -/
theorem C90_filtfilt_violated : ∃ (fs band : ℝ) (d : BandDesign), 0 < fs ∧ 0 < band ∧
    filtfiltOctaveDesign fs band 3 .octave = .ok d ∧ 1 < d.upper := by
  refine ⟨2, 1 / √2, ⟨3, 2 * (1 / √2) / 2 / (octaveAlpha 3 .octave * filtfiltCorrection 3 ^ (3 / Fraction.octave.val)),
      2 * (1 / √2) / 2 * (octaveAlpha 3 .octave * filtfiltCorrection 3 ^ (3 / Fraction.octave.val))⟩,
    by norm_num, by positivity, ?_, ?_⟩
  · unfold filtfiltOctaveDesign
    simp only
    rw [if_neg]
    rw [mul_div_assoc, mul_comm, div_mul_cancel₀ _ (by norm_num)]
    exact lt_irrefl _
  · have hs2 : √2 * √2 = 2 := Real.mul_self_sqrt (by norm_num)
    have hs : 0 < √2 := by positivity
    have hlt : √2 < 1.4143 := by rw [Real.sqrt_lt' (by norm_num)]; norm_num
    have hα : 1.39 < octaveAlpha 3 .octave := by
      have hhalf : octaveHalf .octave = √2 := by
        unfold octaveHalf; simp only [Fraction.val, Nat.cast_one, mul_one]; rw [← Real.sqrt_eq_rpow]
      have hβ : 2 * (π / (2 * ((3 : ℕ) : ℝ))) / sin (π / (2 * ((3 : ℕ) : ℝ))) / (√2 - 1 / √2) = 2 * π * √2 / 3 := by
        have e1 : π / (2 * ((3 : ℕ) : ℝ)) = π / 6 := by norm_num
        have e2 : √2 - 1 / √2 = 1 / √2 := by field_simp; nlinarith
        rw [e1, sin_pi_div_six, e2]
        field_simp
        ring
      have e : octaveAlpha 3 .octave = (1 + √(1 + 2 * π * √2 / 3 * (2 * π * √2 / 3))) / (2 * π * √2 / 3) := by
        unfold octaveAlpha
        simp only
        rw [hhalf, hβ]
      rw [e]
      have hpi := pi_lt_d4
      have hpi0 := pi_pos
      set β := 2 * π * √2 / 3 with hβdef
      have hβ0 : 0 < β := by positivity
      have hβ1 : β < 2.98 := by
        have : π * √2 < 3.1416 * 1.4143 := by
          apply mul_lt_mul'' hpi hlt hpi0.le hs.le
        rw [hβdef]; nlinarith
      rw [lt_div_iff₀ hβ0]
      have : 1.39 * β - 1 < √(1 + β * β) := by
        apply Real.lt_sqrt_of_sq_lt
        nlinarith
      linarith
    show 1 < 2 * (1 / √2) / 2 * (octaveAlpha 3 .octave * filtfiltCorrection 3 ^ (3 / Fraction.octave.val))
    have e3 : filtfiltCorrection 3 ^ (3 / Fraction.octave.val) = 1.022 ^ 3 := rfl
    have e4 : 2 * (1 / √2) / 2 = 1 / √2 := by ring
    rw [e3, e4, div_mul_eq_mul_div, one_mul, lt_div_iff₀ hs, one_mul]
    nlinarith

/-- The band at 1 kHz is accepted at 48 kHz. -/
example : ∃ d, filtOctaveDesign 48000 1000 3 .third = .ok d := by
  rcases h : filtOctaveDesign 48000 1000 3 .third with e | d
  · exfalso
    have he : e = .valueError := by
      unfold filtOctaveDesign at h
      simp only at h
      split at h
      · exact (Except.error.inj h).symm
      · simp at h
    subst he
    rw [C90_refused _ _ (by norm_num)] at h
    have : √2 < 2 := by rw [Real.sqrt_lt' (by norm_num)]; norm_num
    rw [div_lt_iff₀ (by positivity)] at h
    nlinarith
  · exact ⟨d, rfl⟩

/-! ## C91: exponential averaging -/

/-- **C91** The step response: after a constant signal has been present for `k + 1` samples, the average has reached the
fraction `1 - exp(-(k + 1) / (τ fs))` of it, for every block size. -/
theorem C91_step (tau fs c : ℝ) (len num : ℕ) (hn : 0 < num) (blocks : List (List ℝ))
    (hsrc : IsBlocking num (List.replicate len c) blocks) :
    ∃ out, Filter.result (TimeExpAverage.sos tau fs) (fun _ => TimeExpAverage.sos tau fs) blocks = ⟨out, .returned⟩ ∧
      IsBlocking num ((List.range len).map fun k : ℕ => c * (1 - exp (-((k : ℝ) + 1) / (tau * fs)))) out := by
  set q := exp (-1 / tau / fs) with hq
  have hpow : ∀ k : ℕ, exp (-((k : ℝ) + 1) / (tau * fs)) = q ^ (k + 1) := by
    intro k
    rw [hq, ← Real.exp_nat_mul]
    congr 1
    push_cast
    rw [div_div]; ring
  -- response to the signal that ends after `len` samples
  obtain ⟨y, hy0, hy⟩ : ∃ y : ℕ → ℝ, y 0 = (1 - q) • signal (List.replicate len c) 0 ∧
      ∀ n, y (n + 1) = (1 - q) • signal (List.replicate len c) (n + 1) + q • y n :=
    ⟨fun n => Nat.rec ((1 - q) • signal (List.replicate len c) 0)
      (fun n v => (1 - q) • signal (List.replicate len c) (n + 1) + q • v) n, rfl, fun _ => rfl⟩
  obtain ⟨out, h1, h2⟩ := C10_time_exp_average tau fs (List.replicate len c) num hn blocks hsrc y hy0 hy
  refine ⟨out, h1, ?_⟩
  have hs : ∀ k, k < len → signal (List.replicate len c) k = c := by
    intro k hk
    simp [signal, List.getD, hk]
  have hv : ∀ k, k < len → y k = c * (1 - q ^ (k + 1)) := by
    intro k
    induction k with
    | zero => intro hk; rw [hy0, hs 0 hk]; simp; ring
    | succ k ih => intro hk; rw [hy, hs _ hk, ih (by omega)]; simp only [smul_eq_mul]; ring
  have e : (List.range len).map (fun k : ℕ => c * (1 - exp (-((k : ℝ) + 1) / (tau * fs)))) =
      (List.range (List.replicate len c).length).map y := by
    rw [List.length_replicate]
    refine List.map_congr_left fun k hk => ?_
    rw [hpow, hv k (List.mem_range.1 hk)]
  rw [e]
  exact h2

/-- The hypotheses of `C91_step` are met: -/
example := C91_step 0.125 48000 3 5 2 (by decide) _ (isBlocking_chunks (by decide) _)

/-- The average never leaves the range of the signal and zero; so averages of squares are not negative. -/
theorem C91_range (tau fs : ℝ) (ht : 0 < tau) (hf : 0 < fs) (lo hi : ℝ) (hlo : lo ≤ 0) (hhi : 0 ≤ hi) (data : List ℝ)
    (hd : ∀ v ∈ data, lo ≤ v ∧ v ≤ hi) (num : ℕ) (hn : 0 < num) (blocks : List (List ℝ)) (hsrc : IsBlocking num data blocks) :
    ∃ out, Filter.result (TimeExpAverage.sos tau fs) (fun _ => TimeExpAverage.sos tau fs) blocks = ⟨out, .returned⟩ ∧
      out.flatten.length = data.length ∧ ∀ v ∈ out.flatten, lo ≤ v ∧ v ≤ hi := by
  set q := exp (-1 / tau / fs) with hq
  obtain ⟨hq1, hq0⟩ := C10_time_exp_average_alpha tau fs ht hf
  rw [← hq] at hq1 hq0
  obtain ⟨y, hy0, hy⟩ : ∃ y : ℕ → ℝ, y 0 = (1 - q) • signal data 0 ∧
      ∀ n, y (n + 1) = (1 - q) • signal data (n + 1) + q • y n :=
    ⟨fun n => Nat.rec ((1 - q) • signal data 0) (fun n v => (1 - q) • signal data (n + 1) + q • v) n, rfl, fun _ => rfl⟩
  obtain ⟨out, h1, h2⟩ := C10_time_exp_average tau fs data num hn blocks hsrc y hy0 hy
  have hs : ∀ k, lo ≤ signal data k ∧ signal data k ≤ hi := by
    intro k
    unfold signal
    by_cases hk : k < data.length
    · simp only [List.getD, List.getElem?_eq_getElem hk, Option.getD_some]
      exact hd _ (List.getElem_mem hk)
    · simp only [List.getD, List.getElem?_eq_none (not_lt.1 hk), Option.getD_none]
      exact ⟨hlo, hhi⟩
  have hv : ∀ k, lo ≤ y k ∧ y k ≤ hi := by
    intro k
    induction k with
    | zero =>
      rw [hy0, smul_eq_mul]
      have := hs 0
      constructor <;> nlinarith
    | succ k ih =>
      rw [hy, smul_eq_mul, smul_eq_mul]
      have := hs (k + 1)
      constructor <;> nlinarith
  refine ⟨out, h1, ?_, ?_⟩
  · rw [h2.cover]; simp
  · rw [h2.cover]
    intro v hvm
    obtain ⟨k, _, rfl⟩ := List.mem_map.1 hvm
    exact hv k

/-- The hypotheses of `C91_range` are met: -/
example := C91_range 0.125 48000 (by norm_num) (by norm_num) (-1) 3 (by norm_num) (by norm_num) [1, 3, -1] (by norm_num) 2 (by decide) _
  (isBlocking_chunks (by decide) _)

end Acoular
