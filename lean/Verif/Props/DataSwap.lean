import Verif.Model.DataSwap
/-!
C119: after new samples are assigned to a source, everything read is of the new samples.
-/

namespace Acoular

/-- Specification: what the user expects from a session, every read being computed from the samples and
the first sample number in force at that moment. -/
def Spec.expectedReads {α D V : Type} (masked : Bool) (dg : List (List α) → ℕ → D)
    (csm : List (List α) → V) : List (List α) → ℕ → List (SwapOp α) → List (SwapOut D V)
  | _, _, [] => []
  | _, n, .setData d :: ops => Spec.expectedReads masked dg csm d n ops
  | d, n, .setStart n' :: ops =>
      Spec.expectedReads masked dg csm d (if masked then n' else n) ops
  | d, n, .readDigest :: ops => .digest (dg d n) :: Spec.expectedReads masked dg csm d n ops
  | d, n, .readCsm :: ops => .csm (csm (d.drop n)) :: Spec.expectedReads masked dg csm d n ops

/-- Specification: in this session every assignment of different samples also changes the number of
samples or the number of channels. -/
def Spec.ShapeChanges {α : Type} : List (List α) → List (SwapOp α) → Prop
  | _, [] => True
  | old, .setData d :: ops =>
      (d ≠ old → d.length ≠ old.length ∨ (d.headD []).length ≠ (old.headD []).length) ∧
        Spec.ShapeChanges d ops
  | old, _ :: ops => Spec.ShapeChanges old ops

/-- Specification: in this session the samples are never replaced. -/
def Spec.KeepsData {α : Type} : List (SwapOp α) → Prop
  | [] => True
  | .setData _ :: _ => False
  | _ :: ops => Spec.KeepsData ops

open Spec

variable {α D V : Type}

/-- The caches hold nothing or the value of the present traits. -/
private def Fresh (dg : List (List α) → ℕ → D) (csm : List (List α) → V) (s : SwapState α D V) : Prop :=
  (∀ x, s.digestCache = some x → x = dg s.data s.start) ∧
    (∀ v, s.csmCache = some v → v = csm (s.data.drop s.start))

private theorem fresh_readDigest {k : SwapKind} {dg : List (List α) → ℕ → D} {csm : List (List α) → V}
    {s : SwapState α D V} (h : Fresh dg csm s) :
    (swapStep k dg csm s .readDigest).2 = [.digest (dg s.data s.start)] ∧
    (swapStep k dg csm s .readDigest).1.data = s.data ∧
    (swapStep k dg csm s .readDigest).1.start = s.start ∧
    Fresh dg csm (swapStep k dg csm s .readDigest).1 := by
  obtain ⟨h1, h2⟩ := h
  simp only [swapStep]
  cases hc : s.digestCache with
  | some x => exact ⟨by simp [h1 x hc], rfl, rfl, h1, h2⟩
  | none =>
    refine ⟨rfl, rfl, rfl, ?_, h2⟩
    intro x hx
    simpa using hx.symm

private theorem fresh_readCsm {k : SwapKind} {dg : List (List α) → ℕ → D} {csm : List (List α) → V}
    {s : SwapState α D V} (h : Fresh dg csm s) :
    (swapStep k dg csm s .readCsm).2 = [.csm (csm (s.data.drop s.start))] ∧
    (swapStep k dg csm s .readCsm).1.data = s.data ∧
    (swapStep k dg csm s .readCsm).1.start = s.start ∧
    Fresh dg csm (swapStep k dg csm s .readCsm).1 := by
  obtain ⟨h1, h2⟩ := h
  simp only [swapStep]
  cases hc : s.csmCache with
  | some x => exact ⟨by simp [h2 x hc], rfl, rfl, h1, h2⟩
  | none =>
    refine ⟨rfl, rfl, rfl, h1, ?_⟩
    intro x hx
    simpa using hx.symm

private theorem fresh_setStart {dg : List (List α) → ℕ → D} {csm : List (List α) → V}
    {s : SwapState α D V} (h : Fresh dg csm s) (n : ℕ) :
    Fresh dg csm (swapStep .masked dg csm s (.setStart n)).1 := by
  obtain ⟨h1, h2⟩ := h
  simp only [swapStep, startFires]
  by_cases hn : s.start = n
  · subst hn
    simpa [Fresh] using ⟨h1, h2⟩
  · simp [hn, Fresh, SwapState.invalidate]

private theorem fresh_setData {dg : List (List α) → ℕ → D} {csm : List (List α) → V}
    {s : SwapState α D V} (h : Fresh dg csm s) (d : List (List α))
    (hd : d ≠ s.data → d.length ≠ s.data.length ∨ (d.headD []).length ≠ (s.data.headD []).length) :
    Fresh dg csm (swapStep .plain dg csm s (.setData d)).1 := by
  obtain ⟨h1, h2⟩ := h
  simp only [swapStep, dataFires]
  by_cases he : d = s.data
  · subst he
    simpa [Fresh] using ⟨h1, h2⟩
  · have hs : (arrShape s.data != arrShape d) = true := by
      rw [bne_iff_ne]
      intro hsh
      simp only [arrShape, Prod.mk.injEq] at hsh
      rcases hd he with h' | h'
      · exact h' hsh.1.symm
      · exact h' hsh.2.symm
    simp [hs, Fresh, SwapState.invalidate]

private theorem plain_run (dg : List (List α) → ℕ → D) (csm : List (List α) → V) :
    ∀ (ops : List (SwapOp α)) (s : SwapState α D V), Fresh dg csm s → ShapeChanges s.data ops →
      swapRun .plain dg csm s ops = expectedReads false dg csm s.data s.start ops := by
  intro ops
  induction ops with
  | nil => intros; rfl
  | cons op ops ih =>
    intro s hf hs
    cases op with
    | setData d =>
      simp only [swapRun, expectedReads]
      obtain ⟨hd, hs'⟩ := hs
      have hfr := fresh_setData hf d hd
      have hdat : (swapStep .plain dg csm s (.setData d)).1.data = d := by simp [swapStep]
      have hst : (swapStep .plain dg csm s (.setData d)).1.start = s.start := by
        simp only [swapStep]; split <;> rfl
      have hout : (swapStep .plain dg csm s (.setData d)).2 = [] := by simp [swapStep]
      rw [hout, ih _ hfr (by rw [hdat]; exact hs'), hdat, hst]
      rfl
    | setStart n =>
      simp only [swapRun, expectedReads, swapStep]
      simpa using ih s hf hs
    | readDigest =>
      obtain ⟨ho, hd, hst, hf'⟩ := fresh_readDigest (k := .plain) hf
      simp only [swapRun, expectedReads]
      rw [ho, ih _ hf' (by rw [hd]; exact hs), hd, hst]
      rfl
    | readCsm =>
      obtain ⟨ho, hd, hst, hf'⟩ := fresh_readCsm (k := .plain) hf
      simp only [swapRun, expectedReads]
      rw [ho, ih _ hf' (by rw [hd]; exact hs), hd, hst]
      rfl

private theorem masked_run (dg : List (List α) → ℕ → D) (csm : List (List α) → V) :
    ∀ (ops : List (SwapOp α)) (s : SwapState α D V), Fresh dg csm s → KeepsData ops →
      swapRun .masked dg csm s ops = expectedReads true dg csm s.data s.start ops := by
  intro ops
  induction ops with
  | nil => intros; rfl
  | cons op ops ih =>
    intro s hf hs
    cases op with
    | setData d => exact absurd hs (by simp [KeepsData])
    | setStart n =>
      simp only [swapRun, expectedReads]
      have hfr := fresh_setStart hf n
      have hdat : (swapStep .masked dg csm s (.setStart n)).1.data = s.data := by
        simp only [swapStep]; split <;> rfl
      have hst : (swapStep .masked dg csm s (.setStart n)).1.start = n := by simp [swapStep]
      have hout : (swapStep .masked dg csm s (.setStart n)).2 = [] := by simp [swapStep]
      rw [hout, ih _ hfr hs, hdat, hst]
      rfl
    | readDigest =>
      obtain ⟨ho, hd, hst, hf'⟩ := fresh_readDigest (k := .masked) hf
      simp only [swapRun, expectedReads]
      rw [ho, ih _ hf' hs, hd, hst]
      rfl
    | readCsm =>
      obtain ⟨ho, hd, hst, hf'⟩ := fresh_readCsm (k := .masked) hf
      simp only [swapRun, expectedReads]
      rw [ho, ih _ hf' hs, hd, hst]
      rfl

private theorem fresh_init (dg : List (List α) → ℕ → D) (csm : List (List α) → V) (d : List (List α)) :
    Fresh dg csm (swapInit d) := by simp [Fresh, swapInit]

/-- **C119 (part: the shape changes).**  For every session with a plain source in which each assignment
of different samples changes their number or the number of channels, every identifier and every
cross-spectral matrix read belongs to the samples assigned last.
Missing: assignments of the same shape, for which the claim fails (`C119_same_shape_violated`). -/
theorem C119_shape_change_partial (dg : List (List α) → ℕ → D) (csm : List (List α) → V)
    (d₀ : List (List α)) (ops : List (SwapOp α)) (h : ShapeChanges d₀ ops) :
    swapRun .plain dg csm (swapInit d₀) ops = expectedReads false dg csm d₀ 0 ops :=
  plain_run dg csm ops (swapInit d₀) (fresh_init dg csm d₀) h

/-- The hypotheses of `C119_shape_change_partial` are met: -/
example := C119_shape_change_partial (D := ℕ) (V := ℕ) (fun d _ => d.length) (fun d => (d.map List.sum).sum) [[1, 2], [3, 4]]
  [.readCsm, .setData [[1, 2], [3, 4], [5, 6]], .readCsm, .setData [[(7 : ℕ), 8]], .readDigest] (by simp [ShapeChanges])

/-- **C119 (part: masked source, same samples).**  For every session with a masked source that moves the
first valid sample at will, but does not replace the samples, every identifier and matrix read belongs
to the samples from the first valid sample on. -/
theorem C119_masked_window_partial (dg : List (List α) → ℕ → D) (csm : List (List α) → V)
    (d₀ : List (List α)) (ops : List (SwapOp α)) (h : KeepsData ops) :
    swapRun .masked dg csm (swapInit d₀) ops = expectedReads true dg csm d₀ 0 ops :=
  masked_run dg csm ops (swapInit d₀) (fresh_init dg csm d₀) h

/-- The hypotheses of `C119_masked_window_partial` are met: -/
example := C119_masked_window_partial (D := ℕ) (V := ℕ) (fun d _ => d.length) (fun d => (d.map List.sum).sum) [[1, 2], [3, 4]]
  [.readCsm, .setStart 2, .readCsm, .setStart 0, .readDigest] (by simp [KeepsData])

/-- **C119 violated (same shape).**  Whatever two arrays of the same shape: after reading once,
assigning the second array to a plain source changes neither the identifier nor the cross-spectral
matrix that are read; both are those of the first array. -/
theorem C119_same_shape_violated (dg : List (List α) → ℕ → D) (csm : List (List α) → V)
    (d₁ d₂ : List (List α)) (hl : d₁.length = d₂.length)
    (hc : (d₁.headD []).length = (d₂.headD []).length) :
    swapRun .plain dg csm (swapInit d₁) [.readDigest, .readCsm, .setData d₂, .readDigest, .readCsm] =
      [.digest (dg d₁ 0), .csm (csm d₁), .digest (dg d₁ 0), .csm (csm d₁)] := by
  have hb : (arrShape d₁ != arrShape d₂) = false := by
    simp only [arrShape, hl, hc, bne_self_eq_false]
  simp [swapRun, swapStep, swapInit, dataFires, hb]

/-- **C119 violated (masked source).**  With a masked source this happens for any two arrays, even of
different shapes. -/
theorem C119_masked_violated (dg : List (List α) → ℕ → D) (csm : List (List α) → V)
    (d₁ d₂ : List (List α)) :
    swapRun .masked dg csm (swapInit d₁) [.readDigest, .readCsm, .setData d₂, .readDigest, .readCsm] =
      [.digest (dg d₁ 0), .csm (csm d₁), .digest (dg d₁ 0), .csm (csm d₁)] := by
  simp [swapRun, swapStep, swapInit, dataFires]

/-- **C119 (remedy).**  Moving the first valid sample of a masked source to another place after the
replacement, as often as one likes, makes the next reads those of the new samples. -/
theorem C119_masked_remedy (dg : List (List α) → ℕ → D) (csm : List (List α) → V)
    (d₂ : List (List α)) (s : SwapState α D V) (n : ℕ) (hn : n ≠ s.start) :
    swapRun .masked dg csm s [.setData d₂, .setStart n, .readDigest, .readCsm] =
      [.digest (dg d₂ n), .csm (csm (d₂.drop n))] := by
  simp [swapRun, swapStep, dataFires, startFires, SwapState.invalidate, Ne.symm hn]

/-- The part theorem applies to a session that grows the array, and the violation is visible: the sum of
the samples read after the replacement is the old one. -/
example : ShapeChanges [[1, 2], [3, 4]]
    [.readCsm, .setData [[1, 2], [3, 4], [5, 6]], .readCsm, .setData [[(7 : ℕ), 8]], .readDigest] := by
  simp [ShapeChanges]

example : KeepsData [SwapOp.readCsm, .setStart 2, .readCsm, (.setStart 0 : SwapOp ℕ), .readDigest] := by
  simp [KeepsData]

example : swapRun (D := ℕ) (V := ℕ) .plain (fun d _ => (d.headD []).sum) (fun d => (d.map List.sum).sum)
    (swapInit [[1, 2], [3, 4]]) [.readCsm, .setData [[10, 20], [30, 40]], .readCsm] =
    [.csm 10, .csm 10] ∧
    expectedReads (D := ℕ) (V := ℕ) false (fun d _ => (d.headD []).sum) (fun d => (d.map List.sum).sum)
      [[1, 2], [3, 4]] 0 [.readCsm, .setData [[10, 20], [30, 40]], .readCsm] = [.csm 10, .csm 100] := by
  decide

end Acoular
