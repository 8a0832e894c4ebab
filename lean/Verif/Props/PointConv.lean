import Verif.Model.PointConv
import Verif.Props.Convolve
import Verif.Lemmas.StreamModel

/-!
# C114: point sources with impulse responses
-/

namespace Acoular

open Spec

private theorem source_blocks (signal : List ℂ) (hs : signal ≠ []) (numMics num : ℕ) (hn : 0 < num) :
    TimeSamples.result (repeatSignal signal numMics) numMics none num = ⟨chunks num (repeatSignal signal numMics), .returned⟩ := by
  have hl : (repeatSignal signal numMics).length ≠ 0 := by
    unfold repeatSignal
    simpa using hs
  rw [TimeSamples.result, if_neg hl, blockLoop_eq _ hn _ _ (by omega)]
  simp

/-- **C114** Every microphone gets what the convolution of the signal with its column of the kernel delivers (C49), wherever
the source is. -/
theorem C114_channel (signal : List ℂ) (hs : signal ≠ []) (kernels : List (List ℂ)) (numMics num : ℕ) [NeZero num]
    (loc : Fin 3 → ℝ) (hk : kernels.length = numMics) :
    ∃ out, pointSourceConvolve signal kernels numMics num loc = .ok out ∧ ∀ c k, kernels[c]? = some k →
      ∃ blocks, IsBlocking num signal blocks ∧ out c = convChannel num k signal.length blocks := by
  have hn : 0 < num := Nat.pos_of_ne_zero (NeZero.ne num)
  obtain ⟨out, h1, h2⟩ := (C49_channels num kernels numMics signal.length
    (fun c => (chunks num (repeatSignal signal numMics)).map fun b => b.map fun row => row.getD c 0)).1 hk
  refine ⟨out, ?_, fun c k hck => ⟨_, ?_, h2 c k hck⟩⟩
  · unfold pointSourceConvolve
    simp only [source_blocks signal hs numMics num hn]
    exact h1
  · have hc : c < numMics := by
      rw [← hk]
      exact (List.getElem?_eq_some_iff.1 hck).1
    have h := (isBlocking_chunks hn (repeatSignal signal numMics)).map hn fun row => row.getD c 0
    have e : (repeatSignal signal numMics).map (fun row => row.getD c 0) = signal := by
      unfold repeatSignal
      rw [List.map_map]
      conv_rhs => rw [← List.map_id signal]
      refine List.map_congr_left fun x _ => ?_
      simp [hc]
    rw [e] at h
    exact h

/-- The hypotheses of `C114_channel` are met: -/
example := C114_channel [1, 0, 1] (by simp) [[1, 2], [3, 4]] 2 3 ![0, 0, 1] rfl

/-- **C114** (part) With one kernel of up to `num` taps per microphone, all of them of the same length, every microphone gets
the full linear convolution of the signal with its kernel in blocks of `num` samples, unless its length is a multiple of
`num`. -/
theorem C114_convolution_partial (signal : List ℂ) (hs : signal ≠ []) (kernels : List (List ℂ)) (numMics num : ℕ) [NeZero num]
    (loc : Fin 3 → ℝ) (hk : kernels.length = numMics)
    (hlen : ∀ k ∈ kernels, k ≠ [] ∧ k.length ≤ num ∧ (k.length + signal.length - 1) % num ≠ 0) :
    ∃ out, pointSourceConvolve signal kernels numMics num loc = .ok out ∧ ∀ c k, kernels[c]? = some k →
      IsBlocking num (linConv k signal) (out c).blocks ∧ (out c).exit = .returned := by
  obtain ⟨out, h1, h2⟩ := C114_channel signal hs kernels numMics num loc hk
  refine ⟨out, h1, fun c k hck => ?_⟩
  obtain ⟨blocks, hb, e⟩ := h2 c k hck
  obtain ⟨a1, a2, a3⟩ := hlen k (List.mem_of_getElem? hck)
  rw [e]
  exact C49_convolution_partial num k signal a1 hs a2 a3 blocks hb

/-- The hypotheses of `C114_convolution_partial` are met: -/
example := C114_convolution_partial [1, 0, 1] (by simp) [[1, 2], [3, 4]] 2 3 ![0, 0, 1] rfl (by simp)

/-- The documented single kernel for all microphones reaches the first one only; the others get zeros. -/
theorem C114_single_kernel_violated (signal : List ℂ) (hs : signal ≠ []) (kernel : List ℂ) (numMics num : ℕ) [NeZero num]
    (loc : Fin 3 → ℝ) :
    ∃ out, pointSourceConvolve signal [kernel] numMics num loc = .ok out ∧
      ∀ c, 1 ≤ c → ∀ b ∈ (out c).blocks, ∀ v ∈ b, v = 0 := by
  have hn : 0 < num := Nat.pos_of_ne_zero (NeZero.ne num)
  obtain ⟨out, h1, -, h2⟩ := C49_single_kernel_violated num kernel numMics signal.length
    (fun c => (chunks num (repeatSignal signal numMics)).map fun b => b.map fun row => row.getD c 0)
  refine ⟨out, ?_, h2⟩
  unfold pointSourceConvolve
  simp only [source_blocks signal hs numMics num hn]
  exact h1

/-- More samples are delivered than the source declares, for every kernel of two or more taps. -/
theorem C114_num_samples_violated (signal : List ℂ) (hs : signal ≠ []) (k : List ℂ) (num : ℕ) [NeZero num]
    (loc : Fin 3 → ℝ) (h2 : 2 ≤ k.length) (hlen : k.length ≤ num) (hmod : (k.length + signal.length - 1) % num ≠ 0) :
    ∃ out, pointSourceConvolve signal [k] 1 num loc = .ok out ∧
      (out 0).blocks.flatten.length = PointSourceConvolve.numSamples signal + (k.length - 1) ∧
      PointSourceConvolve.numSamples signal < (out 0).blocks.flatten.length := by
  have hk : k ≠ [] := by rintro rfl; simp at h2
  obtain ⟨out, h1, h3⟩ := C114_convolution_partial signal hs [k] 1 num loc rfl (by simpa using ⟨hk, hlen, hmod⟩)
  obtain ⟨hb, -⟩ := h3 0 k rfl
  have hf : (out 0).blocks.flatten = linConv k signal := hb.1
  have hl : (linConv k signal).length = k.length + signal.length - 1 := by simp [linConv]
  refine ⟨out, h1, ?_, ?_⟩ <;> rw [hf, hl] <;> unfold PointSourceConvolve.numSamples <;> omega

/-- The number of kernels must be one or the number of microphones, and there must be samples. -/
theorem C114_errors (kernels : List (List ℂ)) (numMics num : ℕ) [NeZero num] (loc : Fin 3 → ℝ) (signal : List ℂ) :
    (kernels.length ≠ 1 → kernels.length ≠ numMics →
      pointSourceConvolve signal kernels numMics num loc = .error .valueError) ∧
    (kernels.length = numMics → pointSourceConvolve [] kernels numMics num loc = .error .osError) := by
  constructor
  · intro h1 h2
    unfold pointSourceConvolve
    simp only
    split
    · rw [if_pos ⟨h1, h2⟩]
    · exact (C49_channels num kernels numMics _ _).2 h1 h2
  · intro h
    have : TimeSamples.result (repeatSignal [] numMics) numMics none num = .raise .osError := by
      simp [TimeSamples.result, repeatSignal]
    unfold pointSourceConvolve
    simp only [this]
    show (if _ then _ else _) = _
    rw [if_neg (by simp [h])]

/-- Two taps, three samples, blocks of three: four samples are delivered. -/
example : ([1, 2] : List ℂ).length ≤ 3 ∧ (([1, 2] : List ℂ).length + ([1, 0, 1] : List ℂ).length - 1) % 3 ≠ 0 := by simp

end Acoular
