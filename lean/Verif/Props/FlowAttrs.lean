import Verif.Model.FlowAttrs
import Mathlib.Tactic.Ring
import Mathlib.Tactic.Linarith

/-!
# C163: number of columns, frequency axis and block size announced by a chain of blocks
-/

namespace Acoular

namespace Spec

/-- The chain delivers spectra: the last transform is forward (`RFFT`), not `IRFFT`. -/
def deliversSpectra : FlowObj → Bool
  | .samples _ _ => false
  | .timeOut s => deliversSpectra s
  | .inOut _ s => deliversSpectra s
  | .rfft _ _ => true
  | .irfft _ => false
  | .auto s => deliversSpectra s
  | .cross s => deliversSpectra s

/-- Blocks for time signals stand behind time signals only. -/
def timeBehindTime : FlowObj → Prop
  | .samples _ _ => True
  | .timeOut s => deliversSpectra s = false ∧ timeBehindTime s
  | .inOut _ s => timeBehindTime s
  | .rfft _ s => timeBehindTime s
  | .irfft s => timeBehindTime s
  | .auto s => timeBehindTime s
  | .cross s => timeBehindTime s

/-- Block size and sampling frequency of the transform whose spectra the chain delivers. -/
noncomputable def lastTransform : FlowObj → Option (ℕ × ℝ)
  | .samples _ _ => none
  | .timeOut s => lastTransform s
  | .inOut _ s => lastTransform s
  | .rfft bs s => some (bs, s.sampleFreq)
  | .irfft _ => none
  | .auto s => lastTransform s
  | .cross s => lastTransform s

/-- No block that works in both domains stands behind the last transform. -/
def directlyBehind : FlowObj → Prop
  | .samples _ _ => False
  | .timeOut _ => False
  | .inOut _ _ => False
  | .rfft _ _ => True
  | .irfft _ => False
  | .auto s => directlyBehind s
  | .cross s => directlyBehind s

end Spec

open Spec FlowObj

private theorem bind_ok {α β : Type} {x : Except PyErr α} {f : α → Except PyErr β} {b : β} (h : x.bind f = .ok b) :
    ∃ a, x = .ok a ∧ f a = .ok b := by
  cases x with
  | error e => simp [Except.bind] at h
  | ok a => exact ⟨a, rfl, h⟩

private theorem direct_spectra (o : FlowObj) : o.typed → ∀ bs, o.blockSize = .ok bs → bs ≠ 0 → deliversSpectra o = true := by
  induction o with
  | samples n fs => intro _ bs h; cases h
  | timeOut s _ => intro _ bs h; cases h
  | inOut k s _ => intro _ bs h h0; cases h; exact absurd rfl h0
  | rfft b s _ => intro _ bs h _; rfl
  | irfft s _ => intro _ bs h; cases h
  | auto s ih => intro ht; exact ih ht.2
  | cross s ih => intro ht; exact ih ht.2

/-- What a successful run says about the attributes. -/
private def Fits (o : FlowObj) (w : ℕ) : Prop :=
  (deliversSpectra o = false → w = o.numChannels) ∧
    (deliversSpectra o = true → ∃ nf, o.numFreqs = .ok nf ∧ 2 ≤ nf ∧ w = o.numChannels * nf)

private theorem fits (o : FlowObj) : o.typed → timeBehindTime o → ∀ w, o.columns = .ok w → Fits o w := by
  induction o with
  | samples n fs =>
    intro _ _ w h
    cases h
    exact ⟨fun _ => rfl, fun h => by cases h⟩
  | timeOut s ih =>
    intro ht hb w h
    refine ⟨fun _ => (ih ht.2 hb.2 w h).1 hb.1, fun h' => ?_⟩
    rw [deliversSpectra, hb.1] at h'
    cases h'
  | inOut k s ih =>
    intro ht hb w h
    have key : s.columns = .ok w → Fits (.inOut k s) w := fun h => ih ht hb w h
    cases k with
    | buffer =>
      obtain ⟨v, hv, h⟩ := bind_ok h
      split at h
      · rename_i hc
        cases h
        refine ⟨fun _ => rfl, fun hd => ?_⟩
        obtain ⟨nf, h1, h2, h3⟩ := (ih ht hb v hv).2 hd
        rcases hc with hc | hc
        · refine ⟨nf, h1, h2, ?_⟩
          show s.numChannels = s.numChannels * nf
          rw [← h3, hc]
        · exfalso
          rw [hc] at h3
          have := Nat.eq_one_of_mul_eq_one_left h3.symm
          omega
      · cases h
    | calib d i =>
      obtain ⟨_, _, h⟩ := bind_ok h
      exact key h
    | average _ => exact key h
    | cache => exact key h
    | splitter => exact key h
  | rfft bs s ih =>
    intro ht hb w h
    obtain ⟨v, hv, h⟩ := bind_ok h
    split at h
    · cases h
      exact ⟨fun h => (by cases h), fun _ => ⟨bs / 2 + 1, rfl, by have := ht.2.2.2; omega, rfl⟩⟩
    · cases h
  | irfft s ih =>
    intro ht hb w h
    obtain ⟨bs, _, h⟩ := bind_ok h
    split at h
    · cases h
    obtain ⟨nf, _, h⟩ := bind_ok h
    obtain ⟨_, _, h⟩ := bind_ok h
    obtain ⟨v, _, h⟩ := bind_ok h
    split at h
    · cases h
      exact ⟨fun _ => rfl, fun h => by cases h⟩
    · cases h
  | auto s ih =>
    intro ht hb w h
    obtain ⟨bs, _, h⟩ := bind_ok h
    split at h
    · cases h
    · exact ih ht.2 hb w h
  | cross s ih =>
    intro ht hb w h
    obtain ⟨nf, hnf, h⟩ := bind_ok h
    obtain ⟨bs, hbs, h⟩ := bind_ok h
    split at h
    · cases h
    rename_i h0
    obtain ⟨v, hv, h⟩ := bind_ok h
    split at h
    · rename_i hc
      cases h
      have := ih ht.2 hb v hv
      refine ⟨fun hd => ?_, fun hd => ?_⟩
      · exfalso
        rw [deliversSpectra, direct_spectra s ht.2 bs hbs h0] at hd
        cases hd
      · obtain ⟨nf', h1, h2, h3⟩ := this.2 hd
        rw [hnf] at h1
        cases h1
        exact ⟨nf, hnf, h2, rfl⟩
    · cases h

/-- **C163, first part.** If a chain runs, the blocks have as many columns as it announces: `num_channels` in the time domain and
`num_channels * num_freqs` in the frequency domain, if blocks for time signals stand behind time signals only.
Missing: the blocks for time signals behind an `InOut` object (`C163_columns_violated`). -/
theorem C163_columns_partial (o : FlowObj) (ht : o.typed) (hb : timeBehindTime o) (w : ℕ) (h : o.columns = .ok w) :
    (deliversSpectra o = false → w = o.numChannels) ∧
      (deliversSpectra o = true → ∃ nf, o.numFreqs = .ok nf ∧ w = o.numChannels * nf) := by
  have := fits o ht hb w h
  exact ⟨this.1, fun hd => let ⟨nf, h1, _, h3⟩ := this.2 hd; ⟨nf, h1, h3⟩⟩

/-- The hypotheses are met: averaged cross spectra of three channels. -/
example : ((FlowObj.inOut (.average 4) (.cross (.rfft 8 (.samples 3 1000)))).columns = .ok 45) ∧
    (FlowObj.inOut (.average 4) (.cross (.rfft 8 (.samples 3 1000)))).typed ∧
    timeBehindTime (.inOut (.average 4) (.cross (.rfft 8 (.samples 3 1000)))) := by
  refine ⟨rfl, ⟨rfl, ⟨rfl, trivial, by decide, by decide⟩⟩, trivial⟩

/-- **C163 fails for blocks for time signals behind a calibration, an average or a cache of spectra.** The trait `source` accepts the
object, which is a `SamplesGenerator` as well; the object announces the channels and delivers columns for all channels and
frequencies. -/
theorem C163_columns_violated (n : ℕ) (fs : ℝ) (bs num : ℕ) (hn : 0 < n) (hb : bs % 2 = 0) (hb2 : 2 ≤ bs) :
    (FlowObj.timeOut (.inOut (.average num) (.rfft bs (.samples n fs)))).typed ∧
      (FlowObj.timeOut (.inOut (.average num) (.rfft bs (.samples n fs)))).columns = .ok (n * (bs / 2 + 1)) ∧
      (FlowObj.timeOut (.inOut (.average num) (.rfft bs (.samples n fs)))).numChannels < n * (bs / 2 + 1) := by
  refine ⟨⟨rfl, ⟨rfl, trivial, hb, hb2⟩⟩, ?_, ?_⟩
  · simp [FlowObj.columns, Except.bind, FlowObj.numChannels]
  · show n < n * (bs / 2 + 1)
    have : n * 2 ≤ n * (bs / 2 + 1) := Nat.mul_le_mul_left n (by omega)
    omega

/-- The hypotheses of `C163_columns_violated` are met: -/
example := C163_columns_violated 3 1000 8 4 (by decide) (by decide) (by decide)

private theorem direct_axis (o : FlowObj) (hd : directlyBehind o) :
    ∃ bs fs, lastTransform o = some (bs, fs) ∧ o.blockSize = .ok bs ∧ o.numFreqs = .ok (bs / 2 + 1) ∧
      o.freqs = .ok (spectraFreqs bs fs) := by
  induction o with
  | samples n fs => cases hd
  | timeOut s _ => cases hd
  | inOut k s _ => cases hd
  | rfft b s _ => exact ⟨b, s.sampleFreq, rfl, rfl, rfl, rfl⟩
  | irfft s _ => cases hd
  | auto s ih => exact ih hd
  | cross s ih => exact ih hd

/-- **C163, second part.** Behind `RFFT` itself and behind power spectra of it, `freqs`, `num_freqs` and `block_size` are those of the
transform whose spectra are delivered.
Missing: all objects that work in both domains (`C163_axis_violated`). -/
theorem C163_axis_partial (o : FlowObj) (hd : directlyBehind o) (bs : ℕ) (fs : ℝ) (h : lastTransform o = some (bs, fs)) :
    o.blockSize = .ok bs ∧ o.numFreqs = .ok (bs / 2 + 1) ∧ o.freqs = .ok (spectraFreqs bs fs) := by
  obtain ⟨b, f, h1, h2⟩ := direct_axis o hd
  rw [h] at h1
  cases h1
  exact h2

/-- The hypotheses of `C163_axis_partial` are met: -/
example := C163_axis_partial (.cross (.rfft 8 (.inOut (.average 2) (.samples 3 1000)))) trivial 8 (1000 / (2 : ℕ)) rfl

private theorem freqs_ne (bs : ℕ) (fs : ℝ) : spectraFreqs bs fs ≠ [] := by
  intro h
  have := congrArg List.length h
  simp [spectraFreqs, npFftfreq] at this

/-- **C163 fails behind every object that works in both domains**: behind the average, the cache, the calibration of any spectra,
`freqs` is empty and `block_size` is 0, although the spectra of the transform are delivered. -/
theorem C163_axis_violated (k : FlowKind) (s : FlowObj) (bs : ℕ) (fs : ℝ) (hb : 2 ≤ bs) (h : lastTransform s = some (bs, fs)) :
    lastTransform (.inOut k s) = some (bs, fs) ∧ (FlowObj.inOut k s).freqs ≠ .ok (spectraFreqs bs fs) ∧
      (FlowObj.inOut k s).blockSize ≠ .ok bs := by
  refine ⟨h, fun he => ?_, fun he => ?_⟩
  · exact freqs_ne bs fs (Except.ok.inj he).symm
  · have := Except.ok.inj he
    omega

/-- The hypotheses of `C163_axis_violated` are met: -/
example := C163_axis_violated (.average 4) (.auto (.rfft 8 (.samples 3 1000))) 8 1000 (by decide) rfl

/-- **C163: calibrated, cached or averaged spectra cannot be transformed back**: `IRFFT` raises `ValueError`. -/
theorem C163_inverse_violated (k : FlowKind) (s : FlowObj) : (FlowObj.irfft (.inOut k s)).columns = .error .valueError := rfl

/-- **C163: power spectra of calibrated, cached or averaged spectra cannot be computed**: `AutoPowerSpectra` and `CrossPowerSpectra`
divide by zero. -/
theorem C163_power_violated (k : FlowKind) (s : FlowObj) (ht : s.typed) (h : directlyBehind s) :
    (FlowObj.auto (.inOut k s)).typed ∧ (FlowObj.auto (.inOut k s)).columns = .error .zeroDivisionError ∧
      (FlowObj.cross (.inOut k s)).columns = .error .zeroDivisionError := by
  refine ⟨⟨rfl, ht⟩, rfl, ?_⟩
  obtain ⟨b, f, _, _, h2, _⟩ := direct_axis s h
  show (s.numFreqs).bind _ = _
  rw [h2]
  rfl

/-- The hypotheses of `C163_power_violated` are met: -/
example := C163_power_violated (.calib (List.replicate 27 100) []) (.rfft 16 (.samples 3 51200))
  ⟨rfl, trivial, by decide, by decide⟩ trivial

/-- **C163, third part.** Directly behind the transform, the inverse transform and the power spectra run and deliver the columns
announced.  Missing: objects in between (`C163_inverse_violated`, `C163_power_violated`). -/
theorem C163_inverse_partial (n : ℕ) (fs : ℝ) (bs : ℕ) (hb : bs % 2 = 0) (hb2 : 2 ≤ bs) :
    (FlowObj.irfft (.rfft bs (.samples n fs))).columns = .ok n ∧
      (FlowObj.auto (.rfft bs (.samples n fs))).columns = .ok (n * (bs / 2 + 1)) ∧
      (FlowObj.cross (.rfft bs (.samples n fs))).columns = .ok (n ^ 2 * (bs / 2 + 1)) := by
  have h0 : bs ≠ 0 := by omega
  have e : n * (bs / 2 + 1) = (bs / 2 + 1) * n := Nat.mul_comm _ _
  have hv : IRFFT.validate (some (bs : ℤ)) ((bs / 2 + 1 : ℕ) : ℤ) = .ok () := by
    unfold IRFFT.validate
    simp only
    rw [if_neg (by omega), if_neg (by push_cast; omega), if_neg (by omega)]
  refine ⟨?_, ?_, ?_⟩
  · simp only [FlowObj.columns, FlowObj.blockSize, FlowObj.numFreqs, FlowObj.numChannels, Except.bind, true_or, if_true, if_neg h0, hv, e]
  · simp only [FlowObj.columns, FlowObj.blockSize, FlowObj.numChannels, Except.bind, true_or, if_true, if_neg h0]
  · simp only [FlowObj.columns, FlowObj.blockSize, FlowObj.numFreqs, FlowObj.numChannels, Except.bind, true_or, if_true, if_neg h0, e]

/-- The hypotheses of `C163_inverse_partial` are met: -/
example := C163_inverse_partial 3 51200 16 (by decide) (by decide)

/-- **C163: buffered spectra.** `SamplesBuffer` is an `InOut` object, but refuses spectra. -/
theorem C163_buffer_violated (n : ℕ) (fs : ℝ) (bs : ℕ) (hn : 0 < n) (hb2 : 2 ≤ bs) :
    (FlowObj.inOut .buffer (.rfft bs (.samples n fs))).columns = .error .valueError := by
  have h : n * 2 ≤ n * (bs / 2 + 1) := Nat.mul_le_mul_left n (by omega)
  have h1 : ¬ (n * (bs / 2 + 1) = n ∨ n * (bs / 2 + 1) = 1) := by omega
  simp only [FlowObj.columns, FlowObj.numChannels, Except.bind, true_or, if_true]
  exact if_neg h1

/-- The hypotheses of `C163_buffer_violated` are met: -/
example := C163_buffer_violated 3 51200 16 (by decide) (by decide)

private theorem root_attrs (o : FlowObj) :
    o.root.numChannels = o.numChannels ∧ o.root.numFreqs = o.numFreqs ∧ deliversSpectra o.root = deliversSpectra o := by
  induction o with
  | inOut k s ih => exact ih
  | _ => exact ⟨rfl, rfl, rfl⟩

private theorem root_runs (o : FlowObj) : ∀ w, o.columns = .ok w → ∃ v, o.root.columns = .ok v := by
  induction o with
  | inOut k s ih =>
    intro w h
    cases k with
    | buffer => obtain ⟨v, hv, _⟩ := bind_ok h; exact ih v hv
    | calib d i => obtain ⟨_, _, h⟩ := bind_ok h; exact ih w h
    | average _ => exact ih w h
    | cache => exact ih w h
    | splitter => exact ih w h
  | _ => intro w h; exact ⟨w, h⟩

private theorem root_typed (o : FlowObj) : o.typed → timeBehindTime o → o.root.typed ∧ timeBehindTime o.root := by
  induction o with
  | inOut k s ih => exact ih
  | _ => intro h1 h2; exact ⟨h1, h2⟩

private theorem root_not_inOut (o : FlowObj) (k : FlowKind) (s : FlowObj) : o.root ≠ .inOut k s := by
  induction o with
  | inOut k s ih => exact ih
  | _ => intro h; cases h

private theorem calibColumns_eq (s : FlowObj) (ht : s.typed) (hb : timeBehindTime s) (w : ℕ) (h : s.columns = .ok w) :
    s.calibColumns = .ok w := by
  obtain ⟨e1, e2, e3⟩ := root_attrs s
  obtain ⟨hf1, hf2⟩ := fits s ht hb w h
  obtain ⟨v, hv⟩ := root_runs s w h
  obtain ⟨ht', hb'⟩ := root_typed s ht hb
  have hspec : s.root.isSamples = false → deliversSpectra s = true := by
    intro hs
    rw [← e3]
    have h2 := root_not_inOut s
    cases hr : s.root with
    | samples _ _ => rw [hr] at hs; cases hs
    | timeOut _ => rw [hr] at hs; cases hs
    | inOut k x => exact absurd hr (h2 k x)
    | rfft _ _ => rfl
    | irfft _ => rw [hr] at hs; cases hs
    | auto x =>
      rw [hr] at hv ht'
      obtain ⟨bs, hbs, hv⟩ := bind_ok hv
      split at hv
      · cases hv
      · rename_i h0; exact direct_spectra x ht'.2 bs hbs h0
    | cross x =>
      rw [hr] at hv ht'
      obtain ⟨nf, _, hv⟩ := bind_ok hv
      obtain ⟨bs, hbs, hv⟩ := bind_ok hv
      split at hv
      · cases hv
      · rename_i h0; exact direct_spectra x ht'.2 bs hbs h0
  have htime : s.root.isSamples = true → deliversSpectra s = false := by
    intro hs
    rw [← e3]
    have h2 := root_not_inOut s
    cases hr : s.root with
    | samples _ _ => rfl
    | timeOut x => rw [hr] at hb'; exact hb'.1
    | inOut k x => exact absurd hr (h2 k x)
    | rfft _ _ => rw [hr] at hs; cases hs
    | irfft _ => rfl
    | auto x => rw [hr] at hs; cases hs
    | cross x => rw [hr] at hs; cases hs
  unfold FlowObj.calibColumns
  cases hs : s.root.isSamples with
  | true => rw [if_pos rfl, e1, hf1 (htime hs)]
  | false =>
    obtain ⟨nf, h1, _, h3⟩ := hf2 (hspec hs)
    rw [if_neg (by simp), e2, h1, e1, h3]
    rfl

private theorem length_filterMap_get {α : Type} (data : List α) (l : List ℕ) (h : ∀ i ∈ l, i < data.length) :
    (l.filterMap fun i => data[i]?).length = l.length := by
  induction l with
  | nil => rfl
  | cons i l ih =>
    rw [List.filterMap_cons, List.getElem?_eq_getElem (h i (by simp))]
    simp [ih fun j hj => h j (by simp [hj])]

/-- **C163: the check of the calibration factors is the right one.** If the source of the calibration runs and blocks for time signals
stand behind time signals, the factors are accepted exactly if there are as many (valid) ones as columns. -/
theorem C163_calib_partial (s : FlowObj) (ht : s.typed) (hb : timeBehindTime s) (w : ℕ) (h : s.columns = .ok w) (data : List ℂ)
    (invalid : List ℤ) :
    (FlowObj.inOut (.calib data invalid) s).columns = .ok w ↔
      (invalid = [] ∧ data.length = w) ∨
      (invalid ≠ [] ∧ ((List.range data.length).filter fun i : ℕ => decide ((i : ℤ) ∉ invalid)).length = w ∧ w ≠ 0) := by
  have hc := calibColumns_eq s ht hb w h
  have hcol : (FlowObj.inOut (.calib data invalid) s).columns =
      (s.calibValidate data invalid).bind fun _ => s.columns := rfl
  rw [hcol, h]
  unfold FlowObj.calibValidate channelMask
  rw [hc]
  by_cases hi : invalid = []
  · subst hi
    by_cases hl : data.length = w <;> simp [Except.bind, applyMask, hl]
  · have hne : invalid.length ≠ 0 := fun h0 => hi (List.length_eq_zero_iff.1 h0)
    simp only [hne, if_false, hi, ne_eq, not_false_eq_true, true_and, false_and, false_or]
    generalize hl : ((List.range data.length).filter fun i : ℕ => decide ((i : ℤ) ∉ invalid)) = l
    have hlen : (applyMask (some l) data).length = l.length := by
      refine length_filterMap_get data l fun i hi => ?_
      rw [← hl] at hi
      exact List.mem_range.1 (List.mem_filter.1 hi).1
    simp only [Option.some.injEq, hlen]
    by_cases h0 : l = []
    · subst h0
      simp [Except.bind]
      omega
    · have : l.length ≠ 0 := fun h1 => h0 (List.length_eq_zero_iff.1 h1)
      by_cases hw : l.length = w
      · subst hw
        simp [Except.bind, h0]
      · simp [Except.bind, h0, hw]

/-- The hypotheses are met: the example of the documentation, factors for all channels and frequencies behind `RFFT`. -/
example : (FlowObj.inOut (.calib (List.replicate 27 100) []) (.rfft 16 (.samples 3 51200))).columns = .ok 27 :=
  (C163_calib_partial (.rfft 16 (.samples 3 51200)) ⟨rfl, trivial, by decide, by decide⟩ trivial 27 rfl _ _).2
    (.inl ⟨rfl, by simp⟩)

/-- **C163: an invalid channel of spectra.** Factors for all channels and frequencies, with one channel marked as invalid, are refused
behind spectra of all channels and behind spectra of the remaining channels: only one single column is left out. -/
theorem C163_invalid_violated (n : ℕ) (fs : ℝ) (bs ch : ℕ) (hb : bs % 2 = 0) (hb2 : 2 ≤ bs) (hc : ch < n) (data : List ℂ)
    (hl : data.length = n * (bs / 2 + 1)) :
    (FlowObj.inOut (.calib data [(ch : ℤ)]) (.rfft bs (.samples n fs))).columns = .error .valueError ∧
      (FlowObj.inOut (.calib data [(ch : ℤ)]) (.rfft bs (.samples (n - 1) fs))).columns = .error .valueError := by
  have hN : ch < n * (bs / 2 + 1) := lt_of_lt_of_le hc (Nat.le_mul_of_pos_right n (by omega))
  have h2 : 2 ≤ n * (bs / 2 + 1) := le_trans (by omega : 2 ≤ 1 * (bs / 2 + 1)) (Nat.mul_le_mul_right _ (by omega))
  have hcount : ((List.range data.length).filter fun i : ℕ => decide ((i : ℤ) ∉ [(ch : ℤ)])).length = n * (bs / 2 + 1) - 1 := by
    have e : ((List.range data.length).filter fun i : ℕ => decide ((i : ℤ) ∉ [(ch : ℤ)])) = (List.range data.length).erase ch := by
      rw [List.nodup_range.erase_eq_filter]
      refine List.filter_congr fun i _ => ?_
      by_cases hi : i = ch <;> simp [hi]
    rw [e, List.length_erase_of_mem (List.mem_range.2 (hl ▸ hN)), List.length_range, hl]
  have hlen : ∀ m, m ≠ n * (bs / 2 + 1) - 1 → ∀ s : FlowObj, s.calibColumns = .ok m →
      (FlowObj.inOut (.calib data [(ch : ℤ)]) s).columns = .error .valueError := by
    intro m hm s hs
    have hcol : (FlowObj.inOut (.calib data [(ch : ℤ)]) s).columns =
        (s.calibValidate data [(ch : ℤ)]).bind fun _ => s.columns := rfl
    rw [hcol]
    unfold FlowObj.calibValidate channelMask
    rw [hs]
    simp only [List.length_singleton, one_ne_zero, if_false, Option.some.injEq]
    have hne : ((List.range data.length).filter fun i : ℕ => decide ((i : ℤ) ∉ [(ch : ℤ)])) ≠ [] := by
      intro h0
      rw [h0] at hcount
      simp only [List.length_nil] at hcount
      omega
    rw [if_neg hne]
    have hl2 : (applyMask (some ((List.range data.length).filter fun i : ℕ => decide ((i : ℤ) ∉ [(ch : ℤ)]))) data).length =
        n * (bs / 2 + 1) - 1 := by
      rw [← hcount]
      refine length_filterMap_get data _ fun i hi => ?_
      exact List.mem_range.1 (List.mem_filter.1 hi).1
    simp only [Except.bind, hl2, ne_eq]
    rw [if_pos (fun h => hm h.symm)]
  refine ⟨hlen (n * (bs / 2 + 1)) (by omega) _ rfl, hlen ((n - 1) * (bs / 2 + 1)) ?_ _ rfl⟩
  obtain ⟨k, rfl⟩ : ∃ k, n = k + 1 := ⟨n - 1, by omega⟩
  rw [Nat.add_sub_cancel, Nat.add_mul]
  omega

/-- The hypotheses of `C163_invalid_violated` are met: -/
example := C163_invalid_violated 3 51200 16 1 (by decide) (by decide) (by decide) (List.replicate 27 100) (by simp)

end Acoular
