import Verif.Model.BfDigest
import Verif.Props.Digest

/-!
# C127: identifiers of frequency domain beamformers and their results
-/

namespace Acoular

variable {n g : ℕ}

/-- Two sets of settings that are told apart by their printed forms, which have the same lengths (other than the last of
each list). -/
structure Spec.FaithfulBf (md5 : List Char → String) (pr : BfPrint n g) (a b : BfSet n g) (k : BfClass) : Prop where
  width : (a.depends md5 pr k).dropLast.map String.length = (b.depends md5 pr k).dropLast.map String.length
  steerWidth : (a.steerDepends pr).dropLast.map String.length = (b.steerDepends pr).dropLast.map String.length
  invWidth : (pr.form a.invForm).length = (pr.form b.invForm).length
  freqData : pr.freqData a.freqs a.csm = pr.freqData b.freqs b.csm → a.freqs = b.freqs ∧ a.csm = b.csm
  grid : pr.grid a.gpos = pr.grid b.gpos → a.gpos = b.gpos
  mics : pr.mics a.mpos = pr.mics b.mpos → a.mpos = b.mpos
  env : pr.env a.c = pr.env b.c → a.c = b.c
  ref : pr.ref a.ref = pr.ref b.ref → a.ref = b.ref
  form : pr.form a.form = pr.form b.form → a.form = b.form
  rDiag : pr.bool a.rDiag = pr.bool b.rDiag → a.rDiag = b.rDiag
  rDiagNorm : pr.num a.rDiagNorm = pr.num b.rDiagNorm → a.rDiagNorm = b.rDiagNorm
  gamma : pr.num a.gamma = pr.num b.gamma → a.gamma = b.gamma
  damp : pr.num a.damp = pr.num b.damp → a.damp = b.damp
  alpha : pr.num a.alpha = pr.num b.alpha → a.alpha = b.alpha
  unitMult : pr.num a.unitMult = pr.num b.unitMult → a.unitMult = b.unitMult
  epsPerc : pr.num a.epsPerc = pr.num b.epsPerc → a.epsPerc = b.epsPerc
  pnorm : pr.num a.pnorm = pr.num b.pnorm → a.pnorm = b.pnorm
  beta : pr.num a.beta = pr.num b.beta → a.beta = b.beta
  comps : pr.int a.comps = pr.int b.comps → a.comps = b.comps
  nIter : pr.int a.nIter = pr.int b.nIter → a.nIter = b.nIter
  stopn : pr.int a.stopn = pr.int b.stopn → a.stopn = b.stopn
  first : pr.int a.first = pr.int b.first → a.first = b.first
  evaList : pr.list a.evaList = pr.list b.evaList → a.evaList = b.evaList
  bounds : pr.bounds a.bounds = pr.bounds b.bounds → a.bounds = b.bounds

open Spec

private theorem digestOf_eq (md5 : List Char → String) (hmd : Function.Injective md5) (c : String) (x y : List String)
    (hl : x.length = y.length) (hw : x.dropLast.map String.length = y.dropLast.map String.length)
    (h : digestOf md5 c (x.map some) = digestOf md5 c (y.map some)) : x = y := by
  unfold digestOf at h
  refine C19_fixed_width_partial c x y hl hw ?_
  refine hmd (String.toList_injective ?_)
  have := congrArg String.toList h
  simpa using this

private theorem deps_eq (md5 : List Char → String) (hmd : Function.Injective md5) (pr : BfPrint n g) (a b : BfSet n g) (k : BfClass)
    (hp : FaithfulBf md5 pr a b k) (hd : a.digest md5 pr k = b.digest md5 pr k) : a.depends md5 pr k = b.depends md5 pr k :=
  digestOf_eq md5 hmd _ _ _ (by cases k <;> rfl) hp.width hd

private theorem steer_eq (md5 : List Char → String) (hmd : Function.Injective md5) (pr : BfPrint n g) (a b : BfSet n g) (k : BfClass)
    (hp : FaithfulBf md5 pr a b k) (hd : a.steerDigest md5 pr = b.steerDigest md5 pr) :
    a.form = b.form ∧ a.c = b.c ∧ a.gpos = b.gpos ∧ a.mpos = b.mpos ∧ a.ref = b.ref := by
  have h := digestOf_eq md5 hmd _ (a.steerDepends pr) (b.steerDepends pr) rfl hp.steerWidth hd
  simp only [BfSet.steerDepends, List.cons.injEq, and_true] at h
  exact ⟨hp.form h.1, hp.env h.2.1, hp.grid h.2.2.1, hp.mics h.2.2.2.1, hp.ref h.2.2.2.2⟩

private theorem inv_eq (md5 : List Char → String) (hmd : Function.Injective md5) (pr : BfPrint n g) (a b : BfSet n g) (k : BfClass)
    (hp : FaithfulBf md5 pr a b k) (hd : a.invDigest md5 pr = b.invDigest md5 pr) :
    a.c = b.c ∧ a.gpos = b.gpos ∧ a.mpos = b.mpos ∧ a.ref = b.ref := by
  have hw := hp.steerWidth
  have hi := hp.invWidth
  simp only [BfSet.steerDepends, List.dropLast, List.map_cons, List.map_nil, List.cons.injEq, and_true] at hw
  have h := digestOf_eq md5 hmd _ (({ a with form := a.invForm } : BfSet n g).steerDepends pr)
    (({ b with form := b.invForm } : BfSet n g).steerDepends pr) rfl (by
      simp only [BfSet.steerDepends, List.dropLast, List.map_cons, List.map_nil, List.cons.injEq, and_true]
      exact ⟨hi, hw.2⟩) hd
  simp only [BfSet.steerDepends, List.cons.injEq, and_true] at h
  exact ⟨hp.env h.2.1, hp.grid h.2.2.1, hp.mics h.2.2.2.1, hp.ref h.2.2.2.2⟩

/-- The geometry does not use the formulation but passes it on. -/
private theorem geo_eq (a b : BfSet n g) (i : ℕ) (hf : a.form = b.form) (hq : a.freqs = b.freqs) (hc : a.c = b.c)
    (hg : a.gpos = b.gpos) (hm : a.mpos = b.mpos) (hr : a.ref = b.ref) : a.geo i = b.geo i := by
  unfold BfSet.geo
  rw [hf, hq, hc, hg, hm, hr]

private theorem base_eq (md5 : List Char → String) (hmd : Function.Injective md5) (pr : BfPrint n g) (a b : BfSet n g) (k : BfClass)
    (hp : FaithfulBf md5 pr a b k) (h : a.baseDepends md5 pr = b.baseDepends md5 pr) (i : ℕ) :
    a.form = b.form ∧ a.csm = b.csm ∧ a.rDiag = b.rDiag ∧ a.rDiagNorm = b.rDiagNorm ∧ a.geo i = b.geo i := by
  simp only [BfSet.baseDepends, List.cons.injEq, and_true] at h
  obtain ⟨h1, h2, h3, -, h5⟩ := h
  obtain ⟨e1, e2, e3, e4, e5⟩ := steer_eq md5 hmd pr a b k hp h5
  exact ⟨e1, (hp.freqData h1).2, hp.rDiag h2, hp.rDiagNorm h3, geo_eq a b i e1 (hp.freqData h1).1 e2 e3 e4 e5⟩

private theorem dirty_eq (a b : BfSet n g) (i : ℕ) (h1 : a.form = b.form) (h2 : a.csm = b.csm) (h3 : a.rDiag = b.rDiag)
    (h4 : a.rDiagNorm = b.rDiagNorm) (h5 : a.geo i = b.geo i) : a.dirty i = b.dirty i := by
  unfold BfSet.dirty
  rw [h1, h2, h3, h4, h5]

private theorem psf_eq (a b : BfSet n g) (i : ℕ) (h1 : a.form = b.form) (h5 : a.geo i = b.geo i) : a.psf i = b.psf i := by
  unfold BfSet.psf
  rw [h1, h5]

/-- **C127** (part) For every beamformer with a grid: if the identifiers of two sets of settings are the same, so is every row
of the result, whatever the other routines calculate. -/
theorem C127_row_partial (md5 : List Char → String) (hmd : Function.Injective md5) (pr : BfPrint n g) (rt : BfRoutines n g)
    (a b : BfSet n g) (k : BfClass) (hk : k ≠ .gridless) (hp : FaithfulBf md5 pr a b k)
    (hd : a.digest md5 pr k = b.digest md5 pr k) (F i : ℕ) : a.row rt F i k = b.row rt F i k := by
  have h := deps_eq md5 hmd pr a b k hp hd
  cases k with
  | gridless => exact absurd rfl hk
  | base =>
    obtain ⟨e1, e2, e3, e4, e5⟩ := base_eq md5 hmd pr a b _ hp h i
    simp only [BfSet.row, dirty_eq a b i e1 e2 e3 e4 e5]
  | capon =>
    obtain ⟨e1, e2, e3, e4, e5⟩ := base_eq md5 hmd pr a b _ hp h i
    simp only [BfSet.row, e1, e2, e5]
  | functional =>
    obtain ⟨h, h'⟩ := List.append_inj h (by rfl)
    obtain ⟨e1, e2, e3, e4, e5⟩ := base_eq md5 hmd pr a b _ hp h i
    simp only [List.cons.injEq, and_true] at h'
    simp only [BfSet.row, e1, e2, e5, hp.gamma h']
  | eig =>
    obtain ⟨h, h'⟩ := List.append_inj h (by rfl)
    obtain ⟨e1, e2, e3, e4, e5⟩ := base_eq md5 hmd pr a b _ hp h i
    simp only [List.cons.injEq, and_true] at h'
    simp only [BfSet.row, e1, e2, e3, e4, e5, hp.comps h']
  | music =>
    obtain ⟨h, h'⟩ := List.append_inj h (by rfl)
    obtain ⟨e1, e2, e3, e4, e5⟩ := base_eq md5 hmd pr a b _ hp h i
    simp only [List.cons.injEq, and_true] at h'
    simp only [BfSet.row, e1, e2, e5, hp.comps h']
  | damas =>
    obtain ⟨h, h'⟩ := List.append_inj h (by rfl)
    obtain ⟨e1, e2, e3, e4, e5⟩ := base_eq md5 hmd pr a b _ hp h i
    simp only [List.cons.injEq, and_true] at h'
    simp only [BfSet.row, dirty_eq a b i e1 e2 e3 e4 e5, psf_eq a b i e1 e5, e3, hp.nIter h'.1, hp.damp h'.2.1]
  | clean =>
    obtain ⟨h, h'⟩ := List.append_inj h (by rfl)
    obtain ⟨e1, e2, e3, e4, e5⟩ := base_eq md5 hmd pr a b _ hp h i
    simp only [List.cons.injEq, and_true] at h'
    simp only [BfSet.row, dirty_eq a b i e1 e2 e3 e4 e5, psf_eq a b i e1 e5, e3, hp.nIter h'.1, hp.damp h'.2.1]
  | damasPlus =>
    obtain ⟨h, h'⟩ := List.append_inj h (by rfl)
    obtain ⟨e1, e2, e3, e4, e5⟩ := base_eq md5 hmd pr a b _ hp h i
    simp only [List.cons.injEq, and_true] at h'
    simp only [BfSet.row, dirty_eq a b i e1 e2 e3 e4 e5, psf_eq a b i e1 e5, hp.alpha h'.1, h'.2.1, hp.nIter h'.2.2.1,
      hp.unitMult h'.2.2.2]
  | orth =>
    obtain ⟨h, h'⟩ := List.append_inj h (by rfl)
    obtain ⟨e1, e2, e3, e4, e5⟩ := base_eq md5 hmd pr a b _ hp h i
    simp only [List.cons.injEq, and_true] at h'
    simp only [BfSet.row, e2, e3, e4, e5, hp.evaList h']
  | cleansc =>
    obtain ⟨h, h'⟩ := List.append_inj h (by rfl)
    obtain ⟨e1, e2, e3, e4, e5⟩ := base_eq md5 hmd pr a b _ hp h i
    simp only [List.cons.injEq, and_true] at h'
    simp only [BfSet.row, e2, e3, e4, e5, hp.nIter h'.1, hp.damp h'.2.1, hp.stopn h'.2.2]
  | cmf =>
    simp only [BfSet.depends, List.cons.injEq, and_true] at h
    obtain ⟨h1, h2, h3, h4, h5, h6, -, h8⟩ := h
    obtain ⟨g1, g2, g3, g4⟩ := inv_eq md5 hmd pr a b _ hp h8
    simp only [BfSet.row, BfSet.geo, g1, g2, g3, g4, (hp.freqData h1).1, (hp.freqData h1).2, hp.alpha h2, h3, hp.nIter h4,
      hp.unitMult h5]
    rw [hp.rDiag h6]
  | gib =>
    simp only [BfSet.depends, List.cons.injEq, and_true] at h
    obtain ⟨h1, h2, -, h4, h5, h6, h7, h8, h9, h10, h11, h12⟩ := h
    obtain ⟨g1, g2, g3, g4⟩ := inv_eq md5 hmd pr a b _ hp h1
    simp only [BfSet.row, BfSet.geo, g1, g2, g3, g4, (hp.freqData h2).1, (hp.freqData h2).2, hp.alpha h4, h5, hp.nIter h6,
      hp.unitMult h7, hp.epsPerc h8, hp.pnorm h9, hp.beta h10, hp.comps h11, hp.first h12]

/-- **C127** (part) Gridless orthogonal beamforming: the same, if `n` is the same too. -/
theorem C127_gridless_partial (md5 : List Char → String) (hmd : Function.Injective md5) (pr : BfPrint n g) (rt : BfRoutines n g)
    (a b : BfSet n g) (hn : a.comps = b.comps) (hp : FaithfulBf md5 pr a b .gridless)
    (hd : a.digest md5 pr .gridless = b.digest md5 pr .gridless) (F i : ℕ) : a.row rt F i .gridless = b.row rt F i .gridless := by
  have h := deps_eq md5 hmd pr a b _ hp hd
  simp only [BfSet.depends, List.cons.injEq, and_true] at h
  obtain ⟨h1, h2, -, h4, h5, h6, h7⟩ := h
  obtain ⟨e1, e2, e3, e4, e5⟩ := steer_eq md5 hmd pr a b _ hp h2
  have eg := geo_eq a b i e1 (hp.freqData h1).1 e2 e3 e4 e5
  simp only [BfSet.row, eg, e1, e4, (hp.freqData h1).2, hp.rDiag h4, hp.evaList h5, hp.bounds h6, h7, hn]

private theorem eva_last (m : ℕ) : evaIndices (m + 1) [-1] = [m] := by
  unfold evaIndices
  have e : (-1 : ℤ) % ((m + 1 : ℕ) : ℤ) = m := by
    rw [show (-1 : ℤ) = m + ((m + 1 : ℕ) : ℤ) * (-1) by push_cast; ring, Int.add_mul_emod_self_left]
    exact Int.emod_eq_of_lt (by omega) (by omega)
  rw [List.range_succ, List.filter_append]
  have h1 : (List.range m).filter (fun x : ℕ => decide ((x : ℤ) ∈ List.map (fun y => y % ((m + 1 : ℕ) : ℤ)) [-1])) = [] := by
    rw [List.filter_eq_nil_iff]
    intro x hx
    rw [List.mem_range] at hx
    simp only [List.map_cons, List.map_nil, List.mem_singleton, e, decide_eq_true_eq]
    omega
  rw [h1]
  push_cast at e
  simp [e]

/-- **C127 is violated** by gridless orthogonal beamforming: `n` is not part of the identifier. For every number of
microphones, all other settings, every printing and hash function: with the component list `[-1]`, the values 1 and 2 of `n`
share an identifier, but their results have different sizes. -/
theorem C127_gridless_violated {m : ℕ} (md5 : List Char → String) (pr : BfPrint (m + 1) g) (rt : BfRoutines (m + 1) g)
    (s : BfSet (m + 1) g) (F i : ℕ) (hi : i < F) :
    let a : BfSet (m + 1) g := { s with evaList := [-1], comps := 1 }
    let b : BfSet (m + 1) g := { s with evaList := [-1], comps := 2 }
    a.digest md5 pr .gridless = b.digest md5 pr .gridless ∧
      (∃ x, a.row rt F i .gridless = .gridless (.ok x) ∧ x.gpos.length = F) ∧
      (∃ y, b.row rt F i .gridless = .gridless (.ok y) ∧ y.gpos.length = 2 * F) := by
  refine ⟨rfl, ?_, ?_⟩
  · simp only [BfSet.row, eva_last, gridlessCalc, gridlessFreq, gridlessStore, GridlessState.zeros, gridlessSize,
      List.length_replicate]
    rw [if_neg (by simp; omega)]
    exact ⟨_, rfl, by simp⟩
  · simp only [BfSet.row, eva_last, gridlessCalc, gridlessFreq, gridlessStore, GridlessState.zeros, gridlessSize,
      List.length_replicate]
    rw [if_neg (by simp; omega)]
    exact ⟨_, rfl, by simp⟩

/-- **C127** Results of CMF and GIB do not depend on the formulation of the steering vector, nor on the history of the
identifier. -/
theorem C127_inverse_form (rt : BfRoutines n g) (s : BfSet n g) (f f' : Formulation) (F i : ℕ) :
    ({ s with form := f, invForm := f' } : BfSet n g).row rt F i .cmf = s.row rt F i .cmf ∧
      ({ s with form := f, invForm := f' } : BfSet n g).row rt F i .gib = s.row rt F i .gib := ⟨rfl, rfl⟩

/-- **C127**: … **but** the identifier of the geometry they use is made from the formulation that was set when it was
last calculated: the same settings have different identifiers after different histories. -/
theorem C127_inverse_identifier_violated (md5 : List Char → String) (hmd : Function.Injective md5) (pr : BfPrint n g)
    (s : BfSet n g) (f f' : Formulation) (hw : (pr.form f).length = (pr.form f').length) (hf : pr.form f ≠ pr.form f')
    (hl : (({ s with invForm := f } : BfSet n g).invDigest md5 pr).length =
      (({ s with invForm := f' } : BfSet n g).invDigest md5 pr).length) :
    ({ s with invForm := f } : BfSet n g).digest md5 pr .cmf ≠ ({ s with invForm := f' } : BfSet n g).digest md5 pr .cmf ∧
      ({ s with invForm := f } : BfSet n g).digest md5 pr .gib ≠ ({ s with invForm := f' } : BfSet n g).digest md5 pr .gib := by
  have key : ({ s with invForm := f } : BfSet n g).invDigest md5 pr ≠ ({ s with invForm := f' } : BfSet n g).invDigest md5 pr := by
    intro h
    have := digestOf_eq md5 hmd _ (({ s with form := f, invForm := f } : BfSet n g).steerDepends pr)
      (({ s with form := f', invForm := f' } : BfSet n g).steerDepends pr) rfl (by simp [BfSet.steerDepends, hw]) h
    simp only [BfSet.steerDepends, List.cons.injEq] at this
    exact hf this.1
  constructor
  · intro h
    have := digestOf_eq md5 hmd _ (({ s with invForm := f } : BfSet n g).depends md5 pr .cmf)
      (({ s with invForm := f' } : BfSet n g).depends md5 pr .cmf) rfl (by simp [BfSet.depends]) h
    simp only [BfSet.depends, List.cons.injEq, and_true, true_and] at this
    exact key this
  · intro h
    have := digestOf_eq md5 hmd _ (({ s with invForm := f } : BfSet n g).depends md5 pr .gib)
      (({ s with invForm := f' } : BfSet n g).depends md5 pr .gib) rfl (by simp [BfSet.depends, hl]) h
    simp only [BfSet.depends, List.cons.injEq, and_true] at this
    exact key this

/-! ### Cases that meet the hypotheses -/

/-- Formulations printed in one character each, everything else as given. -/
private def shortForm : Formulation → String
  | .classic => "1"
  | .inverse => "2"
  | .trueLevel => "3"
  | .trueLocation => "4"

private theorem shortForm_length (f : Formulation) : (shortForm f).length = 1 := by cases f <;> rfl

private theorem shortForm_inj (f f' : Formulation) (h : shortForm f = shortForm f') : f = f' := by
  cases f <;> cases f' <;> first | rfl | exact absurd h (by decide)

/-- CMF with two different formulations of the steering vector: the hypotheses of `C127_row_partial` hold, and the
identifiers are the same. -/
example (md5 : List Char → String) (pr : BfPrint n g) (s : BfSet n g) (f : Formulation) :
    FaithfulBf md5 { pr with form := shortForm } s { s with form := f } .cmf ∧
      s.digest md5 { pr with form := shortForm } .cmf =
        ({ s with form := f } : BfSet n g).digest md5 { pr with form := shortForm } .cmf :=
  ⟨{ width := rfl, steerWidth := by simp [BfSet.steerDepends, shortForm_length], invWidth := rfl, freqData := fun _ => ⟨rfl, rfl⟩
     grid := fun _ => rfl, mics := fun _ => rfl, env := fun _ => rfl, ref := fun _ => rfl, form := shortForm_inj _ _
     rDiag := fun _ => rfl, rDiagNorm := fun _ => rfl, gamma := fun _ => rfl, damp := fun _ => rfl, alpha := fun _ => rfl
     unitMult := fun _ => rfl, epsPerc := fun _ => rfl, pnorm := fun _ => rfl, beta := fun _ => rfl, comps := fun _ => rfl
     nIter := fun _ => rfl, stopn := fun _ => rfl, first := fun _ => rfl, evaList := fun _ => rfl, bounds := fun _ => rfl }, rfl⟩

/-- Different formulations have different identifiers for the classes that use them (`C127_row_partial` is about a
hypothesis that tells settings apart): conventional beamforming, hash function with no collisions. -/
example (md5 : List Char → String) (hmd : Function.Injective md5) (pr : BfPrint n g) (s : BfSet n g) (f : Formulation)
    (hf : f ≠ s.form) : s.steerDigest md5 { pr with form := shortForm } ≠
      ({ s with form := f } : BfSet n g).steerDigest md5 { pr with form := shortForm } := by
  intro h
  have := digestOf_eq md5 hmd _ (s.steerDepends { pr with form := shortForm })
    (({ s with form := f } : BfSet n g).steerDepends { pr with form := shortForm }) rfl
    (by simp [BfSet.steerDepends, shortForm_length]) h
  simp only [BfSet.steerDepends, List.cons.injEq] at this
  exact hf (shortForm_inj _ _ this.1).symm

/-- Hash functions without collisions exist in the model (the text itself), and the lengths asked for in
`C127_inverse_identifier_violated` are then equal. -/
example (pr : BfPrint n g) (s : BfSet n g) (f f' : Formulation) :
    (({ s with invForm := f } : BfSet n g).invDigest String.ofList { pr with form := shortForm }).length =
      (({ s with invForm := f' } : BfSet n g).invDigest String.ofList { pr with form := shortForm }).length := by
  simp [BfSet.invDigest, BfSet.steerDigest, digestOf, digestPreimage, BfSet.steerDepends, shortForm_length]

/-- The hypotheses of `C127_gridless_partial` are met: two settings of the gridless method that differ in the precision of the point spread functions only. -/
example (md5 : List Char → String) (hmd : Function.Injective md5) (pr : BfPrint n g) (rt : BfRoutines n g) (s : BfSet n g) (b : BfSet n g) :=
  C127_gridless_partial md5 hmd { pr with form := shortForm } rt s { s with psfPrecision := b.psfPrecision } rfl
   { width := rfl, steerWidth := by simp [BfSet.steerDepends, shortForm_length], invWidth := rfl, freqData := fun _ => ⟨rfl, rfl⟩
     grid := fun _ => rfl, mics := fun _ => rfl, env := fun _ => rfl, ref := fun _ => rfl, form := shortForm_inj _ _
     rDiag := fun _ => rfl, rDiagNorm := fun _ => rfl, gamma := fun _ => rfl, damp := fun _ => rfl, alpha := fun _ => rfl
     unitMult := fun _ => rfl, epsPerc := fun _ => rfl, pnorm := fun _ => rfl, beta := fun _ => rfl, comps := fun _ => rfl
     nIter := fun _ => rfl, stopn := fun _ => rfl, first := fun _ => rfl, evaList := fun _ => rfl, bounds := fun _ => rfl } rfl

end Acoular
