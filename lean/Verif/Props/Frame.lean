import Verif.Props.SingleSource

/-!
# Property theorems: only the shape of the arrangement matters (C157)
-/

namespace Acoular

open Spec Matrix Complex

variable {n g e : ℕ}

/-- Motions, mirror images and changes of scale: all distances are multiplied by `L`. -/
def Spec.Similarity (f : (Fin 3 → ℝ) → Fin 3 → ℝ) (L : ℝ) : Prop := ∀ x y, distance (f x) (f y) = L * distance x y

/-- The arrangement carried along by `f`: grid, microphones and reference position; a reference distance is multiplied by `L`. -/
noncomputable def Spec.carried (f : (Fin 3 → ℝ) → Fin 3 → ℝ) (L : ℝ) (s : BfSet n g) : BfSet n g :=
  { s with
    gpos := fun p => f (s.gpos p)
    mpos := fun m => f (s.mpos m)
    ref := match s.ref with
      | .dist d => .dist (L * d)
      | .pos x => .pos (f x) }

private theorem pointDist_eq (x y : Fin 3 → ℝ) : pointDist x y = distance x y := by
  unfold pointDist distance
  rw [Fin.sum_univ_three]

/-- Two geometries that the kernels cannot distinguish. -/
private structure AlikeMap (a b : SteerGeo n (g + 1)) : Prop where
  st : a.st = b.st
  full : ∀ rDiag loss p csm, fullCsmKernel a.st rDiag loss (a.r0 p) (a.rm p) a.k csm = fullCsmKernel b.st rDiag loss (b.r0 p) (b.rm p) b.k csm
  eig : ∀ {e : ℕ} rDiag loss p (eva : Fin e → ℝ) eve,
    eigKernel a.st rDiag loss (a.r0 p) (a.rm p) a.k eva eve = eigKernel b.st rDiag loss (b.r0 p) (b.rm p) b.k eva eve
  norm : ∀ p, kernelNorm a.st (a.r0 p) (a.rm p) = kernelNorm b.st (b.r0 p) (b.rm p)

/-- The same with transfer and point spread functions. -/
private structure Alike (a b : SteerGeo n (g + 1)) : Prop extends AlikeMap a b where
  transfer : ∀ p, transfer (a.r0 p) (a.rm p) a.k = transfer (b.r0 p) (b.rm p) b.k
  psf : ∀ p q, psfKernel a.st (a.r0 p) (a.rm p) (a.r0 q) (a.rm q) a.k = psfKernel b.st (b.r0 p) (b.rm p) (b.r0 q) (b.rm q) b.k

private theorem orth_alike {a b : SteerGeo n (g + 1)} (h : AlikeMap a b) (rDiag : Bool) (nf : ℝ) (eva : Fin n → ℝ) (eve : Fin n → Fin n → ℂ) :
    ∀ (l : List ℤ) (ac : Fin (g + 1) → ℝ), orthCalc a rDiag nf eva eve l ac = orthCalc b rDiag nf eva eve l ac
  | [], _ => rfl
  | i :: is, ac => by
    unfold orthCalc
    cases pyIndex n i with
    | none => rfl
    | some l => simp only [h.eig]; exact orth_alike h rDiag nf eva eve is _

private theorem remove_alike {a b : SteerGeo n (g + 1)} (h : Alike a b) (rDiag : Bool) (nf damp : ℝ) (s : CleanscState n g) :
    cleanscRemove a rDiag nf damp s = cleanscRemove b rDiag nf damp s := by
  have hs : ∀ p, steerVector a.st (a.r0 p) (a.rm p) a.k = steerVector b.st (b.r0 p) (b.rm p) b.k := fun p => by
    unfold steerVector; rw [h.st, h.transfer]
  unfold cleanscRemove cleanscHh
  simp only [h.eig, hs]

private theorem loop_alike {a b : SteerGeo n (g + 1)} (h : Alike a b) (rDiag : Bool) (nf damp : ℝ) (stopn : ℕ) :
    ∀ (J : ℕ) (s : CleanscState n g), cleanscLoop a rDiag nf damp stopn J s = cleanscLoop b rDiag nf damp stopn J s
  | 0, _ => rfl
  | J + 1, s => by
    unfold cleanscLoop
    dsimp only
    rw [remove_alike h]
    split_ifs
    · rfl
    · exact loop_alike h rDiag nf damp stopn J _

private theorem cleansc_alike {a b : SteerGeo n (g + 1)} (h : Alike a b) (rDiag : Bool) (nf damp : ℝ) (stopn nIter : ℕ) (csm : Matrix (Fin n) (Fin n) ℂ) :
    cleanscCalc a rDiag nf damp stopn nIter csm = cleanscCalc b rDiag nf damp stopn nIter csm := by
  unfold cleanscCalc
  rw [loop_alike h]
  simp only [h.full]

private theorem map_alike (rt : BfRoutines n g) {s t : BfSet n g} {i : ℕ} (h : AlikeMap (t.geo i) (s.geo i))
    (hs : t = { s with freqs := t.freqs, gpos := t.gpos, mpos := t.mpos, c := t.c, ref := t.ref }) (F : ℕ) :
    t.dirty i = s.dirty i ∧ ∀ k ∈ [BfClass.base, .functional, .capon, .eig, .music, .orth], t.row rt F i k = s.row rt F i k := by
  obtain ⟨fr, gp, mp, c, rf, e⟩ : ∃ fr gp mp c rf, t = { s with freqs := fr, gpos := gp, mpos := mp, c := c, ref := rf } := ⟨_, _, _, _, _, hs⟩
  clear hs
  subst e
  have h' := h
  obtain ⟨-, h1, h2, h3⟩ := h
  simp only [show ∀ t : BfSet n g, (t.geo i).st = t.form from fun _ => rfl] at h1 h2 h3
  have hd : ({ s with freqs := fr, gpos := gp, mpos := mp, c := c, ref := rf } : BfSet n g).dirty i = s.dirty i := by
    funext p
    unfold BfSet.dirty bfCalcPoint
    simp only [h1]
  refine ⟨hd, fun k hk => ?_⟩
  fin_cases hk
  · unfold BfSet.row; dsimp only; rw [hd]
  · unfold BfSet.row functionalPoint; simp only [h2, h3]
  · unfold BfSet.row caponPoint; simp only [h1]
  · unfold BfSet.row; simp only [h2]
  · unfold BfSet.row; simp only [h2]
  · unfold BfSet.row; dsimp only; rw [orth_alike h']

/-- Settings that differ only in what the kernels cannot distinguish have the same rows. -/
private theorem row_alike (rt : BfRoutines n g) {s t : BfSet n g} {i : ℕ} (h : Alike (t.geo i) (s.geo i))
    (hs : t = { s with freqs := t.freqs, gpos := t.gpos, mpos := t.mpos, c := t.c, ref := t.ref }) (F : ℕ) {k : BfClass} (hk : k ≠ .gridless) :
    t.row rt F i k = s.row rt F i k := by
  obtain ⟨hd, hr⟩ := map_alike rt h.toAlikeMap hs F
  have hp : t.psf i = s.psf i := by
    funext p q
    exact h.psf p q
  obtain ⟨fr, gp, mp, c, rf, e⟩ : ∃ fr gp mp c rf, t = { s with freqs := fr, gpos := gp, mpos := mp, c := c, ref := rf } := ⟨_, _, _, _, _, hs⟩
  clear hs
  subst e
  cases k with
  | base => exact hr _ (by simp)
  | functional => exact hr _ (by simp)
  | capon => exact hr _ (by simp)
  | eig => exact hr _ (by simp)
  | music => exact hr _ (by simp)
  | damas => unfold BfSet.row; dsimp only; rw [hd, hp]
  | damasPlus => unfold BfSet.row; dsimp only; rw [hd, hp]
  | orth => exact hr _ (by simp)
  | cleansc => unfold BfSet.row; dsimp only; rw [cleansc_alike h]
  | clean => unfold BfSet.row; dsimp only; rw [hd, hp]
  | cmf => unfold BfSet.row; simp only [h.transfer]
  | gib => unfold BfSet.row; simp only [h.transfer]
  | gridless => exact absurd rfl hk

/-! ### Changes of scale -/

/-- Power of the length in the unnormalised steering vector. -/
private noncomputable def dim (st : Formulation) (L : ℝ) : ℝ := match st with
  | .classic => 1
  | .inverse => L
  | .trueLevel => L⁻¹
  | .trueLocation => L⁻¹

private theorem phase_scale {L : ℝ} (hL : L ≠ 0) (k r : ℝ) : phase (k / L * (L * r)) = phase (k * r) := by
  congr 1
  field_simp

private theorem kernelSteer_scale (st : Formulation) {L : ℝ} (hL : L ≠ 0) (rm : Fin n → ℝ) (k : ℝ) (m : Fin n) :
    kernelSteer st (fun m => L * rm m) (k / L) m = (dim st L : ℂ) * kernelSteer st rm k m := by
  have h : (L : ℂ) ≠ 0 := Complex.ofReal_ne_zero.2 hL
  cases st <;> simp only [kernelSteer, dim, phase_scale hL] <;> push_cast
  · ring
  · ring
  · rw [mul_comm (L : ℂ), ← div_div]; ring
  · rw [mul_comm (L : ℂ), ← div_div]; ring

private theorem full_scale (csm : Matrix (Fin n) (Fin n) ℂ) (rDiag : Bool) (d : ℝ) (h : Fin n → ℂ) :
    scalarProdFull csm rDiag (fun m => (d : ℂ) * h m) = d ^ 2 * scalarProdFull csm rDiag h := by
  unfold scalarProdFull
  rw [mul_add]
  congr 1
  · rw [Finset.mul_sum]
    refine Finset.sum_congr rfl fun m _ => ?_
    have : (∑ m2 ∈ Finset.univ.filter (· < m), csm m2 m * (starRingEnd ℂ) ((d : ℂ) * h m2)) * ((d : ℂ) * h m) =
        ((d ^ 2 : ℝ) : ℂ) * ((∑ m2 ∈ Finset.univ.filter (· < m), csm m2 m * (starRingEnd ℂ) (h m2)) * h m) := by
      rw [Finset.sum_mul, Finset.sum_mul, Finset.mul_sum]
      refine Finset.sum_congr rfl fun m2 _ => ?_
      rw [map_mul, Complex.conj_ofReal]
      push_cast
      ring
    rw [this, Complex.re_ofReal_mul]
    ring
  · cases rDiag
    · simp only [Bool.false_eq_true, if_false]
      rw [Finset.mul_sum]
      refine Finset.sum_congr rfl fun m _ => ?_
      have : csm m m * (starRingEnd ℂ) ((d : ℂ) * h m) * ((d : ℂ) * h m) = ((d ^ 2 : ℝ) : ℂ) * (csm m m * (starRingEnd ℂ) (h m) * h m) := by
        rw [map_mul, Complex.conj_ofReal]
        push_cast
        ring
      rw [this, Complex.re_ofReal_mul]
    · simp

private theorem help_scale (L : ℝ) (rm : Fin n → ℝ) :
    helpNormalize .inverse (fun m => L * rm m) = L ^ 2 * helpNormalize .inverse rm ∧
    helpNormalize .trueLevel (fun m => L * rm m) = (L⁻¹) ^ 2 * helpNormalize .trueLevel rm ∧
    helpNormalize .trueLocation (fun m => L * rm m) = (L⁻¹) ^ 2 * helpNormalize .trueLocation rm := by
  refine ⟨?_, ?_, ?_⟩ <;> simp only [helpNormalize, Finset.mul_sum] <;> refine Finset.sum_congr rfl fun m _ => ?_
  · ring
  · rw [one_div, one_div, mul_inv, mul_inv, mul_inv]; ring
  · rw [one_div, one_div, mul_inv, mul_inv, mul_inv]; ring

private theorem result_scale (st : Formulation) {L : ℝ} (hL : L ≠ 0) (r0 : ℝ) (rm : Fin n → ℝ) (loss x : ℝ) :
    kernelResult st (L * r0) (fun m => L * rm m) loss (dim st L ^ 2 * x) = kernelResult st r0 rm loss x := by
  cases st <;> simp only [kernelResult, dim, (help_scale L rm).2.1, (help_scale L rm).2.2]
  · ring
  · rw [show (n : ℝ) * (L * r0) * (n * (L * r0)) = L ^ 2 * (n * r0 * (n * r0)) by ring, mul_div_mul_left _ _ (by positivity)]
  · rw [show L * r0 * (L⁻¹ ^ 2 * helpNormalize .trueLevel rm) * (L * r0 * (L⁻¹ ^ 2 * helpNormalize .trueLevel rm)) =
      L⁻¹ ^ 2 * (r0 * helpNormalize .trueLevel rm * (r0 * helpNormalize .trueLevel rm)) by field_simp, mul_div_mul_left _ _ (by positivity)]
  · rw [show (n : ℝ) * (L⁻¹ ^ 2 * helpNormalize .trueLocation rm) = L⁻¹ ^ 2 * (n * helpNormalize .trueLocation rm) by ring,
      mul_div_mul_left _ _ (by positivity)]

private theorem fullKernel_scale (st : Formulation) {L : ℝ} (hL : L ≠ 0) (rDiag : Bool) (loss r0 : ℝ) (rm : Fin n → ℝ) (k : ℝ)
    (csm : Matrix (Fin n) (Fin n) ℂ) :
    fullCsmKernel st rDiag loss (L * r0) (fun m => L * rm m) (k / L) csm = fullCsmKernel st rDiag loss r0 rm k csm := by
  unfold fullCsmKernel
  rw [show kernelSteer st (fun m => L * rm m) (k / L) = fun m => (dim st L : ℂ) * kernelSteer st rm k m from
    funext fun m => kernelSteer_scale st hL rm k m, full_scale, result_scale st hL]

private theorem norm_scale (st : Formulation) {L : ℝ} (hL : L ≠ 0) (r0 : ℝ) (rm : Fin n → ℝ) :
    kernelNorm st (L * r0) (fun m => L * rm m) = kernelNorm st r0 rm := by
  cases st <;> simp only [kernelNorm, (help_scale L rm).1, (help_scale L rm).2.1]
  · rw [show (n : ℝ) * (L * r0) * (n * (L * r0)) = L ^ 2 * (n * r0 * (n * r0)) by ring, mul_div_mul_left _ _ (by positivity)]
  · rw [div_div, div_div, show L * r0 * (L * r0) * (L⁻¹ ^ 2 * helpNormalize .trueLevel rm) = r0 * r0 * helpNormalize .trueLevel rm by field_simp]

private theorem transfer_scale {L : ℝ} (hL : L ≠ 0) (r0 : ℝ) (rm : Fin n → ℝ) (k : ℝ) :
    transfer (L * r0) (fun m => L * rm m) (k / L) = transfer r0 rm k := by
  funext m
  have h : (L : ℂ) ≠ 0 := Complex.ofReal_ne_zero.2 hL
  unfold transfer
  rw [← mul_sub, phase_scale hL]
  push_cast
  rw [show phase (k * (rm m - r0)) * ((L : ℂ) * r0) = (L : ℂ) * (phase (k * (rm m - r0)) * r0) by ring, mul_div_mul_left _ _ h]

private theorem psf_scale (st : Formulation) {L : ℝ} (hL : L ≠ 0) (r0 : ℝ) (rm : Fin n → ℝ) (s0 : ℝ) (sm : Fin n → ℝ) (k : ℝ) :
    psfKernel st (L * r0) (fun m => L * rm m) (L * s0) (fun m => L * sm m) (k / L) = psfKernel st r0 rm s0 sm k := by
  have h : (L : ℂ) ≠ 0 := Complex.ofReal_ne_zero.2 hL
  have key : ∀ (d : ℝ) (p : ℂ), ((d : ℂ) * p * (starRingEnd ℂ) ((d : ℂ) * p)).re = d ^ 2 * (p * (starRingEnd ℂ) p).re := by
    intro d p
    rw [map_mul, Complex.conj_ofReal, show (d : ℂ) * p * (d * (starRingEnd ℂ) p) = ((d ^ 2 : ℝ) : ℂ) * (p * (starRingEnd ℂ) p) by push_cast; ring,
      Complex.re_ofReal_mul]
  have hh : ∑ m, 1 / (L * rm m * (L * rm m)) = L⁻¹ ^ 2 * ∑ m, 1 / (rm m * rm m) := (help_scale L rm).2.1
  cases st <;> simp only [psfKernel, ← mul_sub, phase_scale hL]
  · have : ∑ m, phase (k * (rm m - sm m)) / ((L * sm m : ℝ) : ℂ) = ((L⁻¹ : ℝ) : ℂ) * ∑ m, phase (k * (rm m - sm m)) / (sm m : ℂ) := by
      rw [Finset.mul_sum]
      refine Finset.sum_congr rfl fun m _ => ?_
      push_cast
      rw [mul_comm (L : ℂ), ← div_div]; ring
    rw [this, key]
    field_simp
  · have : ∑ m, phase (k * (rm m - sm m)) / ((L * sm m : ℝ) : ℂ) * ((L * rm m : ℝ) : ℂ) =
        ∑ m, phase (k * (rm m - sm m)) / (sm m : ℂ) * (rm m : ℂ) := by
      refine Finset.sum_congr rfl fun m _ => ?_
      push_cast
      rw [mul_comm (L : ℂ), ← div_div]; field_simp
    rw [this, mul_div_mul_left _ _ hL]
  · have : ∑ m, phase (k * (rm m - sm m)) / ((L * sm m : ℝ) : ℂ) / ((L * rm m : ℝ) : ℂ) =
        (((L⁻¹) ^ 2 : ℝ) : ℂ) * ∑ m, phase (k * (rm m - sm m)) / (sm m : ℂ) / (rm m : ℂ) := by
      rw [Finset.mul_sum]
      refine Finset.sum_congr rfl fun m _ => ?_
      push_cast
      rw [div_eq_mul_inv, div_eq_mul_inv, mul_inv, mul_inv]; ring
    rw [this, key, hh, mul_div_mul_left _ _ hL]
    rw [← div_div (s0 / r0) (L⁻¹ ^ 2)]
    field_simp
  · have : ∑ m, phase (k * (rm m - sm m)) / ((L * sm m : ℝ) : ℂ) / ((L * rm m : ℝ) : ℂ) =
        (((L⁻¹) ^ 2 : ℝ) : ℂ) * ∑ m, phase (k * (rm m - sm m)) / (sm m : ℂ) / (rm m : ℂ) := by
      rw [Finset.mul_sum]
      refine Finset.sum_congr rfl fun m _ => ?_
      push_cast
      rw [div_eq_mul_inv, div_eq_mul_inv, mul_inv, mul_inv]; ring
    rw [this, key, hh, ← div_div _ (L⁻¹ ^ 2)]
    field_simp

private theorem alike_of_scale {a b : SteerGeo n (g + 1)} {L : ℝ} (hL : L ≠ 0) (h1 : a.st = b.st) (h2 : ∀ p, a.r0 p = L * b.r0 p)
    (h3 : ∀ p m, a.rm p m = L * b.rm p m) (h4 : a.k = b.k / L) : Alike a b := by
  have h3' : ∀ p, a.rm p = fun m => L * b.rm p m := fun p => funext (h3 p)
  refine ⟨⟨h1, fun rd lo p c => ?_, fun rd lo p ev ee => ?_, fun p => ?_⟩, fun p => ?_, fun p q => ?_⟩
  · rw [h1, h2, h3', h4, fullKernel_scale _ hL]
  · rw [C24_eig_kernel, C24_eig_kernel, h1, h2, h3', h4, fullKernel_scale _ hL]
  · rw [h1, h2, h3', norm_scale _ hL]
  · rw [h2, h3', h4, transfer_scale hL]
  · rw [h1, h2, h2, h3', h3', h4, psf_scale _ hL]

/-- **C157** (scale) A model `L` times as large at wave lengths `L` times as long (so frequency times length over speed of sound is the same): every
beamformer with a grid returns the same result, for each of the four formulations. -/
theorem C157_similar (rt : BfRoutines n g) (s : BfSet n g) {f : (Fin 3 → ℝ) → Fin 3 → ℝ} {L : ℝ} (hL : 0 < L) (hf : Similarity f L)
    (freqs : ℕ → ℝ) (c : ℝ) (i : ℕ) (hw : freqs i * L / c = s.freqs i / s.c) (F : ℕ) {k : BfClass} (hk : k ≠ .gridless) :
    { carried f L s with freqs := freqs, c := c }.row rt F i k = s.row rt F i k := by
  refine row_alike rt ?_ rfl F hk
  refine alike_of_scale hL.ne' rfl (fun p => ?_) (fun p m => ?_) ?_
  · simp only [BfSet.geo, carried]
    cases s.ref with
    | dist d => rfl
    | pos x => simp only [pointDist_eq]; exact hf _ _
  · simp only [BfSet.geo, carried, pointDist_eq]
    exact hf _ _
  · simp only [BfSet.geo, carried]
    rw [mul_div_assoc, mul_div_assoc, ← hw]
    field_simp

/-- **C157** (motion) The choice of the coordinate system does not matter: if grid, microphones and reference position are moved, turned or mirrored
together, every beamformer with a grid returns the same result. -/
theorem C157_motion (rt : BfRoutines n g) (s : BfSet n g) {f : (Fin 3 → ℝ) → Fin 3 → ℝ} (hf : Similarity f 1) (F i : ℕ) {k : BfClass}
    (hk : k ≠ .gridless) : (carried f 1 s).row rt F i k = s.row rt F i k :=
  C157_similar rt s one_pos hf s.freqs s.c i (by rw [mul_one]) F hk

/-! ### The reference position has to be moved, too -/

/-- **C157** (reference) The reference has no influence on the maps of these classes with 'classic' and 'true location'; with 'inverse' and 'true
level' the map of the conventional beamformer is inversely proportional to the square of the distance to the reference. -/
theorem C157_reference (rt : BfRoutines n g) (s : BfSet n g) (ref : SteerRef) (F i : ℕ) :
    (s.form = .classic ∨ s.form = .trueLocation → ∀ k ∈ [BfClass.base, .functional, .capon, .eig, .music, .orth],
      { s with ref := ref }.row rt F i k = s.row rt F i k) ∧
    (s.form = .inverse ∨ s.form = .trueLevel → ∃ v w : Fin (g + 1) → ℝ, s.row rt F i .base = .map v ∧ { s with ref := ref }.row rt F i .base = .map w ∧
      ∀ p, 0 < refDistance (s.gpos p) s.ref → 0 < refDistance (s.gpos p) ref →
        w p * refDistance (s.gpos p) ref ^ 2 = v p * refDistance (s.gpos p) s.ref ^ 2) := by
  have hr0 : ∀ (t : BfSet n g) p, (t.geo i).r0 p = refDistance (t.gpos p) t.ref := fun t p => by
    unfold BfSet.geo refDistance
    cases t.ref with
    | dist d => rfl
    | pos x => simp only [pointDist_eq]
  constructor
  · intro hf
    have h1 : ∀ (rDiag : Bool) (loss a b : ℝ) (rm : Fin n → ℝ) k csm, fullCsmKernel s.form rDiag loss a rm k csm = fullCsmKernel s.form rDiag loss b rm k csm := by
      intro rDiag loss a b rm k csm
      rcases hf with hf | hf <;> rw [hf] <;> rfl
    have hA : AlikeMap (({ s with ref := ref } : BfSet n g).geo i) (s.geo i) := by
      refine ⟨rfl, fun rd lo p c => h1 _ _ _ _ _ _ _, fun rd lo p ev ee => ?_, fun p => ?_⟩
      · rw [C24_eig_kernel, C24_eig_kernel]
        exact h1 _ _ _ _ _ _ _
      · show kernelNorm s.form _ _ = kernelNorm s.form _ _
        rcases hf with hf | hf <;> rw [hf] <;> rfl
    exact (map_alike rt hA rfl F).2
  · intro hf
    refine ⟨_, _, rfl, rfl, fun p ha hb => ?_⟩
    have key : ∀ (rDiag : Bool) (loss a b : ℝ) (rm : Fin n → ℝ) k csm, 0 < a → 0 < b →
        fullCsmKernel s.form rDiag loss a rm k csm * a ^ 2 = fullCsmKernel s.form rDiag loss b rm k csm * b ^ 2 := by
      intro rDiag loss a b rm k csm ha hb
      rcases hf with hf | hf <;> rw [hf] <;> simp only [fullCsmKernel, kernelResult]
      · rw [show (n : ℝ) * a * (n * a) = (n * n) * (a ^ 2) by ring, show (n : ℝ) * b * (n * b) = (n * n) * (b ^ 2) by ring, ← div_div, ← div_div]
        field_simp
      · rw [show ∀ H : ℝ, a * H * (a * H) = (H * H) * a ^ 2 from fun H => by ring, show ∀ H : ℝ, b * H * (b * H) = (H * H) * b ^ 2 from fun H => by ring,
          ← div_div, ← div_div]
        field_simp
    unfold BfSet.dirty bfCalcPoint
    dsimp only
    rw [hr0, hr0]
    have e := key s.rDiag (sigLossNorm s.rDiag s.rDiagNorm n) _ _ ((s.geo i).rm p) (s.geo i).k (s.csm i) hb ha
    rw [show (({ s with ref := ref } : BfSet n g).geo i).rm p = (s.geo i).rm p from rfl, show (({ s with ref := ref } : BfSet n g).geo i).k = (s.geo i).k from rfl]
    split_ifs with h1 h2 h3 h3
    · simp
    · exfalso
      have := mul_neg_of_neg_of_pos h2 (pow_pos hb 2)
      rw [e] at this
      exact h3 (by by_contra h; exact absurd (mul_nonneg (not_lt.1 h) (pow_pos ha 2).le) (not_le.2 this))
    · exfalso
      have := mul_neg_of_neg_of_pos h3 (pow_pos ha 2)
      rw [← e] at this
      exact h2 (by by_contra h; exact absurd (mul_nonneg (not_lt.1 h) (pow_pos hb 2).le) (not_le.2 this))
    · exact e
    · exact e

/-- Translation by `a`. -/
def Spec.shift (a x : Fin 3 → ℝ) : Fin 3 → ℝ := fun j => x j + a j

private theorem shift_similar (a : Fin 3 → ℝ) : Similarity (shift a) 1 := by
  intro x y
  simp only [distance, shift, one_mul, add_sub_add_right_eq_sub]

private theorem scale_similar {L : ℝ} (hL : 0 < L) : Similarity (fun x j => L * x j) L := by
  intro x y
  simp only [distance, ← mul_sub, mul_pow, ← Finset.mul_sum]
  rw [Real.sqrt_mul (by positivity), Real.sqrt_sq hL.le]

/-- One microphone, one grid point at distance one from microphone and reference (the default, the origin). -/
private noncomputable def frameEx (f : Formulation) : BfSet 1 0 where
  freqs := fun _ => 1000
  csm := fun _ => 1
  gpos := fun _ => ![0, 0, 1]
  mpos := fun _ => ![0, 0, 0]
  c := 343
  ref := .pos ![0, 0, 0]
  form := f
  invForm := f
  rDiag := false
  rDiagNorm := 0
  precision := "float64"
  psfPrecision := "float64"
  gamma := 1
  comps := 1
  evaList := [-1]
  damp := 1
  stopn := 3
  nIter := 1
  alpha := 0
  unitMult := 1
  method := "NNLS"
  epsPerc := 1
  pnorm := 1
  beta := 1
  first := 0
  bounds := ![(0, 0), (0, 0), (1, 2)]
  shgo := ""

private theorem phase_unit (a : ℝ) : (phase a).re * (phase a).re + (phase a).im * (phase a).im = 1 := by
  have h := congrArg Complex.re (phase_mul_conj a)
  simpa using h

/-- **C157 is violated** for the default reference: if only microphones and grid are moved and the reference stays in the origin, where it is unless the
user sets it, the level of the map with formulation 'true level' changes (here to a quarter). -/
theorem C157_default_reference_violated (rt : BfRoutines 1 0) : ∃ (s : BfSet 1 0) (a : Fin 3 → ℝ) (v w : Fin 1 → ℝ),
    s.ref = .pos ![0, 0, 0] ∧ s.row rt 1 0 .base = .map v ∧
    { s with gpos := fun p => shift a (s.gpos p), mpos := fun m => shift a (s.mpos m) }.row rt 1 0 .base = .map w ∧ v 0 = 1 ∧ w 0 = 1 / 4 := by
  refine ⟨frameEx .trueLevel, ![0, 0, 1], _, _, rfl, rfl, rfl, ?_, ?_⟩
  · unfold BfSet.dirty bfCalcPoint
    simp [frameEx, BfSet.geo, fullCsmKernel, kernelResult, scalarProdFull, kernelSteer, helpNormalize, sigLossNorm, pointDist]
    exact phase_unit _
  · unfold BfSet.dirty bfCalcPoint
    simp [frameEx, BfSet.geo, fullCsmKernel, kernelResult, scalarProdFull, kernelSteer, helpNormalize, sigLossNorm, pointDist, shift]
    rw [phase_unit]
    norm_num

/-! ### Without grid -/

/-- The optimiser working in coordinates shifted by `a` and reporting in the old ones. -/
def Spec.shiftedOptimiser (a : Fin 3 → ℝ) (rt : BfRoutines n g) : BfRoutines n g :=
  { rt with shgo := fun F b o => rt.shgo (fun x => F (shift a x)) (fun j => ((b j).1 - a j, (b j).2 - a j)) o }

/-- The arrangement and the search region shifted by `a`. -/
noncomputable def Spec.shifted (a : Fin 3 → ℝ) (s : BfSet n g) : BfSet n g :=
  { carried (shift a) 1 s with bounds := fun j => ((s.bounds j).1 + a j, (s.bounds j).2 + a j) }

private theorem clip_shift (a : Fin 3 → ℝ) (b : Fin 3 → ℝ × ℝ) (x : Fin 3 → ℝ) :
    clipBounds (fun j => ((b j).1 + a j, (b j).2 + a j)) (shift a x) = shift a (clipBounds b x) := by
  funext j
  simp only [clipBounds, shift, min_add_add_right, max_add_add_right]

/-- **C157** (search without grid; the part that holds: 'classic' and 'true location', translations) If microphones and search region are translated
together, the positions found are translated and the levels stay. -/
theorem C157_gridless_partial (rt : BfRoutines n g) (s : BfSet n g) (a : Fin 3 → ℝ) (hf : s.form = .classic ∨ s.form = .trueLocation) (F i : ℕ) :
    (shifted a s).row (shiftedOptimiser a rt) F i .gridless = s.row rt F i .gridless := by
  have h1 : ∀ (rDiag : Bool) (loss x y : ℝ) (rm : Fin n → ℝ) k (eva : Fin 1 → ℝ) eve, eigKernel s.form rDiag loss x rm k eva eve = eigKernel s.form rDiag loss y rm k eva eve := by
    intro rDiag loss x y rm k eva eve
    rcases hf with hf | hf <;> rw [hf] <;> rfl
  have hF : ∀ l : ℕ, (fun x : Fin 3 → ℝ => -eigKernel (e := 1) s.form s.rDiag (sigLossNorm s.rDiag 1 n)
        (pointDist (clipBounds (shifted a s).bounds (shift a x)) 0) (fun m => pointDist (clipBounds (shifted a s).bounds (shift a x)) (shift a (s.mpos m)))
        (s.geo i).k (fun _ => 1) fun m _ => rt.col (s.csm i) l m) =
      fun x => -eigKernel (e := 1) s.form s.rDiag (sigLossNorm s.rDiag 1 n) (pointDist (clipBounds s.bounds x) 0)
        (fun m => pointDist (clipBounds s.bounds x) (s.mpos m)) (s.geo i).k (fun _ => 1) fun m _ => rt.col (s.csm i) l m := by
    intro l
    funext x
    rw [show (shifted a s).bounds = fun j => ((s.bounds j).1 + a j, (s.bounds j).2 + a j) from rfl, clip_shift]
    rw [h1 _ _ _ (pointDist (clipBounds s.bounds x) 0)]
    have hd : ∀ m, pointDist (shift a (clipBounds s.bounds x)) (shift a (s.mpos m)) = pointDist (clipBounds s.bounds x) (s.mpos m) := fun m => by
      rw [pointDist_eq, pointDist_eq, shift_similar, one_mul]
    simp only [hd]
  have hpos : ∀ l : ℕ, (shiftedOptimiser a rt).shgo (fun x : Fin 3 → ℝ => -eigKernel (e := 1) s.form s.rDiag (sigLossNorm s.rDiag 1 n)
        (pointDist (clipBounds (shifted a s).bounds x) 0) (fun m => pointDist (clipBounds (shifted a s).bounds x) (shift a (s.mpos m)))
        (s.geo i).k (fun _ => 1) fun m _ => rt.col (s.csm i) l m) (shifted a s).bounds s.shgo =
      rt.shgo (fun x => -eigKernel (e := 1) s.form s.rDiag (sigLossNorm s.rDiag 1 n) (pointDist (clipBounds s.bounds x) 0)
        (fun m => pointDist (clipBounds s.bounds x) (s.mpos m)) (s.geo i).k (fun _ => 1) fun m _ => rt.col (s.csm i) l m) s.bounds s.shgo := by
    intro l
    rw [← hF l]
    show rt.shgo _ (fun j => (((s.bounds j).1 + a j) - a j, ((s.bounds j).2 + a j) - a j)) _ = _
    simp only [add_sub_cancel_right]
  show BfRow.gridless (gridlessCalc (fun _ l => (shiftedOptimiser a rt).shgo (fun x : Fin 3 → ℝ => -eigKernel (e := 1) s.form s.rDiag (sigLossNorm s.rDiag 1 n)
        (pointDist (clipBounds (shifted a s).bounds x) 0) (fun m => pointDist (clipBounds (shifted a s).bounds x) (shift a (s.mpos m)))
        (s.geo i).k (fun _ => 1) fun m _ => rt.col (s.csm i) l m) (shifted a s).bounds s.shgo) _ _ _ _ _) = BfRow.gridless _
  simp only [hpos]
  rfl

/-- Two candidates are compared. -/
private noncomputable def frameRt : BfRoutines 1 0 where
  eigh := fun _ => (fun _ => 1, fun _ _ => 1)
  psfSolve := fun _ _ _ _ _ _ _ => 0
  cmfSolve := fun _ _ _ _ _ _ _ _ => 0
  gibMode := fun _ _ _ _ _ _ _ _ _ _ => ⟨fun _ => 0, []⟩
  shgo := fun F b _ => if F (fun j => (b j).1) < F (fun j => (b j).2) then fun j => (b j).1 else fun j => (b j).2

private theorem frame_row (s : BfSet 1 0) (rt : BfRoutines 1 0) (h1 : s.comps = 1) (h2 : s.evaList = [-1]) (h3 : rt.eigh (s.csm 0) = (fun _ => 1, fun _ _ => 1)) :
    s.row rt 1 0 .gridless = .gridless (.ok ⟨[rt.shgo (fun x => -eigKernel (e := 1) s.form s.rDiag (sigLossNorm s.rDiag 1 1) (pointDist (clipBounds s.bounds x) 0)
        (fun m => pointDist (clipBounds s.bounds x) (s.mpos m)) (s.geo 0).k (fun _ => 1) fun _ _ => 1) s.bounds s.shgo], [[1]], [true]⟩) := by
  unfold BfSet.row
  rw [h1, h2, show evaIndices 1 [-1] = [0] from by decide]
  have hc : ∀ m, rt.col (s.csm 0) 0 m = 1 := fun m => by
    simp [BfRoutines.col, pyIndex, h3]
  have hv : rt.val (s.csm 0) 0 = 1 := by
    simp [BfRoutines.val, pyIndex, h3]
  simp [gridlessCalc, gridlessFreq, gridlessStore, GridlessState.zeros, gridlessSize, hc, hv]

private theorem inverse_value (r0 : ℝ) (rm : Fin 1 → ℝ) (k : ℝ) :
    eigKernel (e := 1) .inverse false (sigLossNorm false 1 1) r0 rm k (fun _ => 1) (fun _ _ => 1) = rm 0 * rm 0 / (r0 * r0) := by
  simp [eigKernel, kernelResult, scalarProdEig, kernelSteer, sigLossNorm]
  congr 1
  have := phase_unit (k * rm 0)
  linear_combination (rm 0 * rm 0) * this

/-- **C157 is violated** without grid for 'inverse' and 'true level': the distance to the origin is used instead of the distance to the reference, whatever the
reference is. Translating microphones, reference and search region together, another position is found. -/
theorem C157_gridless_violated : ∃ (s : BfSet 1 0) (a : Fin 3 → ℝ) (rt : BfRoutines 1 0),
    (shifted a s).row (shiftedOptimiser a rt) 1 0 .gridless ≠ s.row rt 1 0 .gridless := by
  refine ⟨frameEx .inverse, ![0, 0, -1 / 2], frameRt, ?_⟩
  rw [frame_row _ _ rfl rfl rfl, frame_row _ _ rfl rfl rfl]
  intro h
  simp only [BfRow.gridless.injEq, Except.ok.injEq, GridlessState.mk.injEq, List.cons.injEq, and_true] at h
  have h2 := congrFun h 2
  have hs : ∀ x y, pointDist x y * pointDist x y = (x 0 - y 0) ^ 2 + (x 1 - y 1) ^ 2 + (x 2 - y 2) ^ 2 := fun x y => by
    unfold pointDist
    rw [Real.mul_self_sqrt (by positivity)]
  simp only [shiftedOptimiser, frameRt, frameEx, shifted, carried, inverse_value, hs] at h2
  have b0 : (![(0, 0), (0, 0), (1, 2)] : Fin 3 → ℝ × ℝ) 0 = (0, 0) := rfl
  have b1 : (![(0, 0), (0, 0), (1, 2)] : Fin 3 → ℝ × ℝ) 1 = (0, 0) := rfl
  have b2 : (![(0, 0), (0, 0), (1, 2)] : Fin 3 → ℝ × ℝ) 2 = (1, 2) := rfl
  have a0 : (![0, 0, -1 / 2] : Fin 3 → ℝ) 0 = 0 := rfl
  have a1 : (![0, 0, -1 / 2] : Fin 3 → ℝ) 1 = 0 := rfl
  have a2 : (![0, 0, -1 / 2] : Fin 3 → ℝ) 2 = -1 / 2 := rfl
  have z0 : (![0, 0, 0] : Fin 3 → ℝ) 0 = 0 := rfl
  have z1 : (![0, 0, 0] : Fin 3 → ℝ) 1 = 0 := rfl
  have z2 : (![0, 0, 0] : Fin 3 → ℝ) 2 = 0 := rfl
  simp only [clipBounds, shift, b0, b1, b2, a0, a1, a2, z0, z1, z2, Pi.zero_apply, ite_apply] at h2
  norm_num [min_def, max_def] at h2

/-! ### The hypotheses are met -/

/-- A quarter turn about the third axis, a mirror image of the second one and a translation. -/
private theorem turn_similar : Similarity (fun x => ![-x 1 + 1, -x 0, x 2 - 3]) 1 := by
  intro x y
  simp only [distance, Fin.sum_univ_three, one_mul]
  congr 1
  simp
  ring

example (rt : BfRoutines 2 1) : (carried (fun x => ![-x 1 + 1, -x 0, x 2 - 3]) 1 (oneEx .trueLevel 3 0)).row rt 1 0 .cleansc = (oneEx .trueLevel 3 0).row rt 1 0 .cleansc :=
  C157_motion rt _ turn_similar 1 0 (by decide)

/-- A model in the scale 1:10, at ten times the frequency. -/
example (rt : BfRoutines 2 1) : { carried (fun x j => 1 / 10 * x j) (1 / 10) (oneEx .inverse 3 0) with freqs := fun _ => 10000, c := 343 }.row rt 1 0 .damas =
    (oneEx .inverse 3 0).row rt 1 0 .damas :=
  C157_similar rt _ (by norm_num) (scale_similar (by norm_num)) _ _ 0 (by norm_num [oneEx]) 1 (by decide)

example (rt : BfRoutines 2 1) : { oneEx .classic 3 0 with ref := .dist 2 }.row rt 1 0 .music = (oneEx .classic 3 0).row rt 1 0 .music :=
  (C157_reference rt _ _ 1 0).1 (.inl rfl) _ (by simp)

example (rt : BfRoutines 2 1) := (C157_reference rt (oneEx .trueLevel 3 0) (.dist 2) 1 0).2 (.inr rfl)

example (rt : BfRoutines 2 1) := C157_gridless_partial rt (oneEx .classic 3 0) ![1, 2, 3] (.inl rfl) 1 0

end Acoular
