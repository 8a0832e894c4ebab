import Mathlib.Analysis.SpecialFunctions.Complex.Circle
import Mathlib.Data.Matrix.Basic
import Mathlib.Tactic.Ring
import Mathlib.Tactic.LinearCombination
import Mathlib.Tactic.NormNum
import Verif.Model.Aiaa
import Verif.Props.Csm
import Verif.Props.Stream

/-!
# C136: benchmark files

The cross spectral matrix read from a benchmark file is the one acoular computes from the same time data, whichever sign the
transform of the writer of the file had; it is that of the file assigned last.
-/

namespace Acoular
open Spec

local notation "conj" => starRingEnd ℂ

/-- Specification: line `k` of the transform of `N` real samples with the sign `s` in the exponent. -/
noncomputable def Spec.signedDft (s : ℝ) (N : ℕ) (x : ℕ → ℝ) (k : ℕ) : ℂ :=
  ((List.range N).map fun t : ℕ => (x t : ℂ) * Complex.exp (((s * (2 * Real.pi * k * t / N) : ℝ) : ℂ) * Complex.I)).sum

/-- Specification: the file holds the matrices of `blocks` (windowed time data, one function of the sample number for each microphone)
in the convention of the format: `scale · Σ conj(P_m) P_n`, with the transform `P` whose sign is in the file. -/
def Spec.HoldsCsm (b : BenchFile) (scale : ℝ) (N : ℕ) (blocks : List (Fin b.mics → ℕ → ℝ)) : Prop :=
  ∀ (k : Fin b.lines) (m n : Fin b.mics), (⟨b.re m n k, b.im m n k⟩ : ℂ) =
    scale * (blocks.map fun x => conj (signedDft b.sign N (x m) k) * signedDft b.sign N (x n) k).sum

private theorem conj_dft (s : ℝ) (N : ℕ) (x : ℕ → ℝ) (k : ℕ) : conj (signedDft s N x k) = signedDft (-s) N x k := by
  unfold signedDft
  rw [map_list_sum, List.map_map]
  congr 1
  apply List.map_congr_left
  intro t _
  simp only [Function.comp, map_mul, Complex.conj_ofReal, ← Complex.exp_conj, Complex.conj_I]
  congr 2
  push_cast
  ring

/-- **C136.** For either sign of the transform, the matrix read from the file is the one that `PowerSpectra` computes from the
transforms (sign `-1`, `X_i conj(X_j)`) of the same blocks. -/
theorem C136_csm (b : BenchFile) (scale : ℝ) (N : ℕ) (blocks : List (Fin b.mics → ℕ → ℝ)) (hs : b.sign = 1 ∨ b.sign = -1)
    (h : HoldsCsm b scale N blocks) (k : Fin b.lines) :
    b.csm k = calcCsmLine scale (blocks.map fun x m => signedDft (-1) N (x m) k) := by
  rw [C15_csm_eq]
  funext i j
  have h1 := h k i j
  unfold averagedCsm
  rw [Matrix.smul_apply, smul_eq_mul]
  have e : ((blocks.map fun x m => signedDft (-1) N (x m) k).map outer).sum i j
      = (blocks.map fun x => signedDft (-1) N (x i) k * conj (signedDft (-1) N (x j) k)).sum := by
    clear h1 h
    induction blocks with
    | nil => simp
    | cons x l ih => simp only [List.map_cons, List.sum_cons, Matrix.add_apply, ih, outer]
  rw [e]
  unfold BenchFile.csm transpose201
  rcases hs with hs | hs
  · rw [hs] at h1 ⊢
    have e2 : ((b.re i j k : ℝ) : ℂ) + ((1 : ℝ) : ℂ) * Complex.I * ((b.im i j k : ℝ) : ℂ) = ⟨b.re i j k, b.im i j k⟩ := by
      apply Complex.ext <;> simp
    rw [e2, h1]
    congr 2
    apply List.map_congr_left
    intro x _
    rw [conj_dft, conj_dft, neg_neg]
  · rw [hs] at h1 ⊢
    have e2 : ((b.re i j k : ℝ) : ℂ) + ((-1 : ℝ) : ℂ) * Complex.I * ((b.im i j k : ℝ) : ℂ) = conj ⟨b.re i j k, b.im i j k⟩ := by
      apply Complex.ext <;> simp
    rw [e2, h1, map_mul, Complex.conj_ofReal, map_list_sum, List.map_map]
    congr 2
    apply List.map_congr_left
    intro x _
    simp [Function.comp]

/-- A file with the sign `+1`, two microphones and three lines, that holds the matrices of one block. -/
@[reducible] private noncomputable def benchEx (samples : List (List ℝ)) : BenchFile where
  mics := 2
  lines := 3
  re m n k := (conj (signedDft 1 4 (fun t => if t = (m : ℕ) then 1 else 0) k) * signedDft 1 4 (fun t => if t = (n : ℕ) then 1 else 0) k).re
  im m n k := (conj (signedDft 1 4 (fun t => if t = (m : ℕ) then 1 else 0) k) * signedDft 1 4 (fun t => if t = (n : ℕ) then 1 else 0) k).im
  sign := 1
  centers := [[0, 1, 2]]
  positions := fun _ _ => 0
  samples := samples
  rate := 1
  tacho := [[0]]
  tachoChannels := 1
  tachoRate := 1

private theorem benchEx_holds (samples : List (List ℝ)) :
    HoldsCsm (benchEx samples) 1 4 [fun (m : Fin 2) t => if t = (m : ℕ) then 1 else 0] := by
  intro k m n
  rw [List.map_cons, List.map_nil, List.sum_cons, List.sum_nil, add_zero, Complex.ofReal_one, one_mul]

/-- The hypotheses of `C136_csm` are met: -/
example := C136_csm (benchEx []) 1 4 _ (.inl rfl) (benchEx_holds [])

/-- **C136.** It is Hermitian at every line. -/
theorem C136_hermitian (b : BenchFile) (scale : ℝ) (N : ℕ) (blocks : List (Fin b.mics → ℕ → ℝ))
    (h : HoldsCsm b scale N blocks) (k : Fin b.lines) (i j : Fin b.mics) : b.csm k j i = conj (b.csm k i j) := by
  have a := h k i j
  have c := h k j i
  have e : (⟨b.re j i k, b.im j i k⟩ : ℂ) = conj ⟨b.re i j k, b.im i j k⟩ := by
    rw [a, c, map_mul, Complex.conj_ofReal, map_list_sum, List.map_map]
    congr 2
    apply List.map_congr_left
    intro x _
    simp only [Function.comp, map_mul, Complex.conj_conj]
    ring
  have e1 := congrArg Complex.re e
  have e2 := congrArg Complex.im e
  simp only [Complex.conj_re, Complex.conj_im] at e1 e2
  unfold BenchFile.csm transpose201
  rw [e1, e2]
  apply Complex.ext <;> simp

/-- The hypotheses of `C136_hermitian` are met: -/
example := C136_hermitian (benchEx []) 1 4 _ (benchEx_holds []) (2 : Fin 3) (0 : Fin 2) (1 : Fin 2)

/-- Specification: the file assigned last, among those that exist. -/
def Spec.lastBench (disk : List Char → Option BenchFile) (ops : List BenchOp) : Option BenchFile :=
  (ops.filterMap fun | .setFile p => disk p | _ => none).getLast?

/-- Specification: what reading `csm` gives when this is the file. -/
noncomputable def Spec.benchValue : Option BenchFile → Except PyErr AnyCsm
  | none => .error .attributeError
  | some b => .ok ⟨b.lines, b.mics, b.csm⟩

/-- What holds after each operation. -/
private structure BenchInv (disk : List Char → Option BenchFile) (last : Option BenchFile) (s : BenchState) : Prop where
  openFile : s.h5f = last
  named : disk s.file = last
  cached : ∀ c, s.cache = some c → ∃ b, last = some b ∧ c = ⟨b.lines, b.mics, b.csm⟩

private theorem bench_csm {disk : List Char → Option BenchFile} {last : Option BenchFile} {s : BenchState} (h : BenchInv disk last s) :
    s.csm = benchValue last := by
  unfold BenchState.csm
  cases hc : s.cache with
  | some c =>
    obtain ⟨b, hb, rfl⟩ := h.cached c hc
    rw [hb]; rfl
  | none => rw [h.openFile]; cases last <;> rfl

private theorem bench_inv (disk : List Char → Option BenchFile) (h0 : disk [] = none) (sum : AnyCsm → ℝ) (ops : List BenchOp) :
    BenchInv disk (lastBench disk ops) (BenchState.run disk sum ops) := by
  induction ops using List.reverseRecOn with
  | nil => exact ⟨rfl, h0, fun c hc => by cases hc⟩
  | append_singleton ops op ih =>
    have er : BenchState.run disk sum (ops ++ [op]) = BenchState.step disk sum (BenchState.run disk sum ops) op := by
      simp [BenchState.run, List.foldl_append]
    rw [er]
    obtain ⟨s, hs⟩ : ∃ s, s = BenchState.run disk sum ops := ⟨_, rfl⟩
    rw [← hs] at ih ⊢
    cases op with
    | setFile p =>
      cases hp : disk p with
      | none =>
        have el : lastBench disk (ops ++ [.setFile p]) = lastBench disk ops := by simp [lastBench, List.filterMap_append, hp]
        rw [el]
        simpa [BenchState.step, hp] using ih
      | some b =>
        have el : lastBench disk (ops ++ [.setFile p]) = some b := by simp [lastBench, List.filterMap_append, hp]
        rw [el]
        by_cases hf : p = s.file
        · have hl : lastBench disk ops = some b := by rw [← ih.named, ← hf, hp]
          rw [hl] at ih
          have es : BenchState.step disk sum s (.setFile p) = s := by simp only [BenchState.step, hp, if_pos hf]
          rw [es]; exact ih
        · simp only [BenchState.step, hp, if_neg hf]
          exact ⟨rfl, hp, fun c hc => by cases hc⟩
    | setCsm c =>
      have el : lastBench disk (ops ++ [.setCsm c]) = lastBench disk ops := by simp [lastBench, List.filterMap_append]
      rw [el]
      refine ⟨ih.openFile, ih.named, fun d hd => ih.cached d ?_⟩
      simp only [BenchState.step] at hd
      by_cases hn : shadowSum sum s.shadow = s.csmsum
      · rwa [if_pos hn] at hd
      · rw [if_neg hn] at hd; cases hd
    | readCsm =>
      have el : lastBench disk (ops ++ [.readCsm]) = lastBench disk ops := by simp [lastBench, List.filterMap_append]
      rw [el]
      have hcsm := bench_csm ih
      cases hl : lastBench disk ops with
      | none =>
        rw [hl] at hcsm ih
        rw [benchValue] at hcsm
        simpa [BenchState.step, hcsm] using ih
      | some b =>
        rw [hl] at hcsm ih
        rw [benchValue] at hcsm
        simp only [BenchState.step, hcsm]
        exact ⟨ih.openFile, ih.named, fun c hc => ⟨b, rfl, (Option.some.inj hc).symm⟩⟩

/-- **C136.** After every history of assigning files, assigning matrices and reading, the matrix read is that of the existing file
assigned last; before the first one, reading raises. -/
theorem C136_history (disk : List Char → Option BenchFile) (h0 : disk [] = none) (sum : AnyCsm → ℝ) (ops : List BenchOp) :
    (BenchState.run disk sum ops).csm = benchValue (lastBench disk ops) := bench_csm (bench_inv disk h0 sum ops)

/-- The hypotheses of `C136_history` are met: -/
example := C136_history (fun n => if n = "a.h5".toList then some (benchEx []) else none) (by simp) (fun _ => 0)

/-- **C136.** The samples and the tacho signal are delivered in blocks, complete and in order. -/
theorem C136_samples (b : BenchFile) (num : ℕ) (hn : 0 < num) (hd : b.samples ≠ []) (ht : b.tacho ≠ []) :
    ((b.result num).exit = .returned ∧ IsBlocking num b.samples (b.result num).blocks) ∧
    (b.tachoResult num).exit = .returned ∧ IsBlocking num b.tacho (b.tachoResult num).blocks :=
  ⟨C01_time_samples _ _ _ hn hd, C01_time_samples _ _ _ hn ht⟩

/-- The hypotheses of `C136_samples` are met: -/
example := C136_samples (benchEx [[1, 2], [3, 4], [5, 6]]) 2 (by decide) (by simp) (by simp)

/-- **C136.** With one center frequency for each line, in a row or in a column, all lines are used. -/
theorem C136_lines (b : BenchFile) (f : List ℝ) (hf : f.length = b.lines) (h : b.centers = [f] ∨ b.centers = f.map fun x => [x]) :
    b.freqs = f ∧ b.indices = List.range b.lines := by
  have : b.freqs = f := by
    unfold BenchFile.freqs
    rcases h with h | h
    · simp [h]
    · rw [h]
      clear h hf
      induction f with
      | nil => rfl
      | cons x l ih => simp [ih]
  exact ⟨this, by unfold BenchFile.indices; rw [this, hf]⟩

/-- The hypotheses of `C136_lines` are met: -/
example := C136_lines (benchEx []) [0, 1, 2] rfl (.inl rfl)

/-- A file with one microphone and one line. -/
private noncomputable def oneMic (x : ℝ) : BenchFile :=
  { mics := 1, lines := 1, re := fun _ _ _ => x, im := fun _ _ _ => 0, sign := -1, centers := [[1000]],
    positions := fun _ _ => 0, samples := [[x]], rate := 1, tacho := [[0]], tachoChannels := 1, tachoRate := 1 }

/-- Two files with the same name in two directories. -/
private noncomputable def twoDirs : List Char → Option BenchFile := fun p =>
  if p = "a/b.h5".toList then some (oneMic 1) else if p = "c/b.h5".toList then some (oneMic 2) else none

private theorem anyCsm_ne : (⟨1, 1, (oneMic 2).csm⟩ : AnyCsm) ≠ ⟨1, 1, (oneMic 1).csm⟩ := by
  intro h
  have h2 := eq_of_heq (Sigma.mk.inj (eq_of_heq (Sigma.mk.inj h).2)).2
  have := congrFun (congrFun (congrFun h2 (0 : Fin 1)) (0 : Fin 1)) (0 : Fin 1)
  have := congrArg Complex.re this
  simp [BenchFile.csm, transpose201, oneMic] at this

private theorem twoDirs_a : twoDirs "a/b.h5".toList = some (oneMic 1) := by simp [twoDirs]
private theorem twoDirs_c : twoDirs "c/b.h5".toList = some (oneMic 2) := by
  unfold twoDirs
  rw [if_neg (by decide), if_pos rfl]

/-- **C136 (violated).** A matrix assigned to `csm` is accepted and never read back: the file's matrix is returned. -/
theorem C136_assign_violated : ∃ (disk : List Char → Option BenchFile) (p : List Char) (c : AnyCsm), disk [] = none ∧
    ∀ sum : AnyCsm → ℝ, (BenchState.run disk sum [.setFile p, .setCsm c]).csm ≠ .ok c := by
  have h0 : twoDirs [] = none := by simp [twoDirs]
  refine ⟨twoDirs, "a/b.h5".toList, ⟨1, 1, (oneMic 2).csm⟩, h0, fun sum h => ?_⟩
  rw [C136_history _ h0] at h
  simp only [lastBench, List.filterMap_cons, List.filterMap_nil, twoDirs_a, List.getLast?_singleton] at h
  exact anyCsm_ne (Except.ok.inj h).symm

/-- **C136 (violated).** Two files of the same name in different directories have the same identifier, whatever they hold and whatever
the hash function and the printing of numbers are. -/
theorem C136_same_name_violated : ∃ (disk : List Char → Option BenchFile) (p q : List Char), disk [] = none ∧
    ∀ (sum : AnyCsm → ℝ) (md5 : List Char → String) (print : ℝ → String),
    (BenchState.run disk sum [.setFile p]).digest md5 print = (BenchState.run disk sum [.setFile q]).digest md5 print ∧
    (∃ c d, (BenchState.run disk sum [.setFile p]).csm = .ok c ∧ (BenchState.run disk sum [.setFile q]).csm = .ok d ∧ c ≠ d) := by
  have h0 : twoDirs [] = none := by simp [twoDirs]
  refine ⟨twoDirs, "a/b.h5".toList, "c/b.h5".toList, h0, fun sum md5 print => ⟨?_, ⟨1, 1, (oneMic 1).csm⟩, ⟨1, 1, (oneMic 2).csm⟩, ?_, ?_, fun h => anyCsm_ne h.symm⟩⟩
  · have e1 : fileBasename "a/b.h5".toList = fileBasename "c/b.h5".toList := by decide
    have n1 : "a/b.h5".toList ≠ [] := by decide
    have n2 : "c/b.h5".toList ≠ [] := by decide
    simp only [BenchState.run, List.foldl_cons, List.foldl_nil, BenchState.step, twoDirs_a, twoDirs_c, BenchState.new, if_neg n1,
      if_neg n2, BenchState.digest, e1]
  · rw [C136_history _ h0]
    simp only [lastBench, List.filterMap_cons, List.filterMap_nil, twoDirs_a, List.getLast?_singleton]
    rfl
  · rw [C136_history _ h0]
    simp only [lastBench, List.filterMap_cons, List.filterMap_nil, twoDirs_c, List.getLast?_singleton]
    rfl

/-- **C136.** Files with different stems have different identifiers, as long as no matrix was assigned and the hash does not collide. -/
theorem C136_identifier_partial (disk : List Char → Option BenchFile) (sum : AnyCsm → ℝ) (md5 : List Char → String)
    (print : ℝ → String) (hmd : Function.Injective md5) (p q : List Char) (hp : disk p ≠ none) (hq : disk q ≠ none) (h0 : disk [] = none)
    (hd : (BenchState.run disk sum [.setFile p]).digest md5 print = (BenchState.run disk sum [.setFile q]).digest md5 print) :
    fileBasename p = fileBasename q := by
  have key : ∀ r, disk r ≠ none → (BenchState.run disk sum [.setFile r]).digest md5 print =
      digestOf md5 "<class 'acoular.aiaa.aiaa.CsmAIAABenchmark'>" [some (String.ofList (fileBasename r)), some (print 0)] := by
    intro r hr
    obtain ⟨b, hb⟩ := Option.ne_none_iff_exists'.1 hr
    have hne : r ≠ [] := fun e => hr (e ▸ h0)
    simp only [BenchState.run, List.foldl_cons, List.foldl_nil, BenchState.step, hb, BenchState.new, if_neg hne, BenchState.digest]
  rw [key p hp, key q hq] at hd
  simp only [digestOf, digestPreimage] at hd
  have h2 := hmd (String.append_right_inj _ |>.1 hd)
  simpa using h2

/-- The stem of a path. -/
example : fileBasename "/data/run.1.h5".toList = "run.1".toList := by decide
example : fileBasename "".toList = "void".toList := by decide
example : fileBasename "x/.h5".toList = ".h5".toList := by decide

/-- A file with the sign `+1` and two microphones that meets the hypotheses of `C136_csm`. -/
example : ∃ (b : BenchFile) (blocks : List (Fin b.mics → ℕ → ℝ)), b.mics = 2 ∧ b.sign = 1 ∧ HoldsCsm b 1 4 blocks := by
  let P : Fin 2 → ℕ → ℂ := fun m k => signedDft 1 4 (fun t => if t = (m : ℕ) then 1 else 0) k
  refine ⟨{ mics := 2, lines := 3, re := fun m n k => (conj (P m k) * P n k).re, im := fun m n k => (conj (P m k) * P n k).im,
            sign := 1, centers := [[0, 1, 2]], positions := fun _ _ => 0,
            samples := [], rate := 1, tacho := [], tachoChannels := 0, tachoRate := 1 },
    [fun m t => if t = (m : ℕ) then 1 else 0], rfl, rfl, ?_⟩
  intro k m n
  simp only [List.map_cons, List.map_nil, List.sum_cons, List.sum_nil, add_zero, Complex.ofReal_one, one_mul]
  exact Complex.eta _

end Acoular
