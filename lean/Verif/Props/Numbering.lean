import Verif.Props.Gain

/-!
# Property theorems: the order of microphones and of grid points (C159)
-/

namespace Acoular

open Spec Matrix Complex
open scoped ComplexConjugate ComplexOrder

variable {n g e : ℕ}

/-- Specification: the same measurement with the channels in another order. -/
def Spec.renumbered (σ : Equiv.Perm (Fin n)) (s : BfSet n g) : BfSet n g :=
  { s with mpos := fun m => s.mpos (σ m), csm := fun i => (s.csm i).submatrix σ σ }

/-- Specification: the same grid points in another order. -/
def Spec.reordered (τ : Equiv.Perm (Fin (g + 1))) (s : BfSet n g) : BfSet n g := { s with gpos := fun p => s.gpos (τ p) }

section Channels

variable (σ : Equiv.Perm (Fin n))

private theorem steer_perm (st : Formulation) (rm : Fin n → ℝ) (k : ℝ) :
    kernelSteer st (fun m => rm (σ m)) k = fun m => kernelSteer st rm k (σ m) := by
  funext m
  cases st <;> rfl

private theorem help_perm (st : Formulation) (rm : Fin n → ℝ) : helpNormalize st (fun m => rm (σ m)) = helpNormalize st rm := by
  cases st <;> simp only [helpNormalize]
  · exact Equiv.sum_comp σ fun m => rm m * rm m
  · exact Equiv.sum_comp σ fun m => 1 / (rm m * rm m)
  · exact Equiv.sum_comp σ fun m => 1 / (rm m * rm m)

private theorem eig_perm (st : Formulation) (b : Bool) (loss r0 : ℝ) (rm : Fin n → ℝ) (k : ℝ) (eva : Fin e → ℝ) (eve : Fin n → Fin e → ℂ) :
    eigKernel st b loss r0 (fun m => rm (σ m)) k eva (fun m l => eve (σ m) l) = eigKernel st b loss r0 rm k eva eve := by
  unfold eigKernel
  have : scalarProdEig eva (fun m l => eve (σ m) l) b (kernelSteer st (fun m => rm (σ m)) k) = scalarProdEig eva eve b (kernelSteer st rm k) := by
    rw [steer_perm]
    unfold scalarProdEig
    refine Finset.sum_congr rfl fun l _ => ?_
    dsimp only
    rw [Equiv.sum_comp σ fun m => conj (eve m l) * kernelSteer st rm k m,
      Equiv.sum_comp σ fun m => ((conj (eve m l) * kernelSteer st rm k m) * conj (conj (eve m l) * kernelSteer st rm k m)).re]
  rw [this]
  cases st <;> simp only [kernelResult, help_perm]

private theorem full_perm (st : Formulation) (b : Bool) (loss r0 : ℝ) (rm : Fin n → ℝ) (k : ℝ) {C : Matrix (Fin n) (Fin n) ℂ} (hC : C.IsHermitian) :
    fullCsmKernel st b loss r0 (fun m => rm (σ m)) k (C.submatrix σ σ) = fullCsmKernel st b loss r0 rm k C := by
  obtain ⟨eva, eve, h⟩ : ∃ (eva : Fin n → ℝ) (eve : Fin n → Fin n → ℂ), IsEigh C (eva, Matrix.of eve) :=
    (exists_isEigh C hC).imp' Prod.fst fun r h => ⟨r.2, h⟩
  have e : C = assemble eva eve := eigh_assemble h
  rw [e, ← C24_eig_kernel, show (assemble eva eve).submatrix σ σ = assemble eva (fun m l => eve (σ m) l) from rfl, ← C24_eig_kernel, eig_perm]

private theorem norm_perm (st : Formulation) (r0 : ℝ) (rm : Fin n → ℝ) : kernelNorm st r0 (fun m => rm (σ m)) = kernelNorm st r0 rm := by
  cases st <;> simp only [kernelNorm, help_perm]

private theorem psf_perm (st : Formulation) (r0 s0 : ℝ) (rm sm : Fin n → ℝ) (k : ℝ) :
    psfKernel st r0 (fun m => rm (σ m)) s0 (fun m => sm (σ m)) k = psfKernel st r0 rm s0 sm k := by
  cases st <;> simp only [psfKernel]
  · rw [Equiv.sum_comp σ fun m => phase (k * (rm m - sm m)) / (sm m : ℂ)]
  · rw [Equiv.sum_comp σ fun m => phase (k * (rm m - sm m)) / (sm m : ℂ) * (rm m : ℂ)]
  · rw [Equiv.sum_comp σ fun m => phase (k * (rm m - sm m)) / (sm m : ℂ) / (rm m : ℂ), Equiv.sum_comp σ fun m => 1 / (rm m * rm m)]
  · rw [Equiv.sum_comp σ fun m => phase (k * (rm m - sm m)) / (sm m : ℂ) / (rm m : ℂ), Equiv.sum_comp σ fun m => 1 / (rm m * rm m)]

private theorem vector_perm (st : Formulation) (r0 : ℝ) (rm : Fin n → ℝ) (k : ℝ) :
    steerVector st r0 (fun m => rm (σ m)) k = fun m => steerVector st r0 rm k (σ m) := by
  funext m
  unfold steerVector
  have : transfer r0 (fun m => rm (σ m)) k = fun m => transfer r0 rm k (σ m) := rfl
  rw [this]
  cases st <;> simp only [steerFuncFreq]
  · rw [Equiv.sum_comp σ fun l => transfer r0 rm k l * conj (transfer r0 rm k l)]
  · rw [Equiv.sum_comp σ fun l => transfer r0 rm k l * conj (transfer r0 rm k l)]

/-! ### CLEAN-SC -/

/-- geometry with the channels in another order -/
private def geoPerm (geo : SteerGeo n (g + 1)) : SteerGeo n (g + 1) := { geo with rm := fun p m => geo.rm p (σ m) }

private theorem inner_perm (D1 wmax : Fin n → ℂ) (N : ℕ) (hh : Fin n → ℂ) :
    cleanscInner (fun m => D1 (σ m)) (fun m => wmax (σ m)) N (fun m => hh (σ m)) = fun m => cleanscInner D1 wmax N hh (σ m) := by
  induction N generalizing hh with
  | zero => rfl
  | succ N ih =>
    unfold cleanscInner
    dsimp only
    rw [Equiv.sum_comp σ fun l => conj (wmax l) * wmax l * (conj (hh l) * hh l)]
    exact ih fun i => (D1 i + conj (hh i) * hh i * wmax i) / (√(1 + ∑ l, conj (wmax l) * wmax l * (conj (hh l) * hh l)).re : ℂ)

private theorem hh_perm (geo : SteerGeo n (g + 1)) (nf : ℝ) (C : Matrix (Fin n) (Fin n) ℂ) (q : Fin (g + 1)) (h : ℝ) :
    cleanscHh (geoPerm σ geo) nf (C.submatrix σ σ) q h = fun m => cleanscHh geo nf C q h (σ m) := by
  unfold cleanscHh
  dsimp only [geoPerm]
  simp only [vector_perm σ]
  rw [← inner_perm]
  congr 1
  funext i
  congr 1
  rw [← Equiv.sum_comp σ fun l => (C l (σ i) - if σ i = l then C (σ i) (σ i) else 0) * conj (steerVector geo.st (geo.r0 q) (geo.rm q) geo.k l * (√nf : ℂ))]
  refine Finset.sum_congr rfl fun l _ => ?_
  simp only [Matrix.submatrix_apply, σ.injective.eq_iff]

private def scPerm (s : CleanscState n g) : CleanscState n g := { s with csm := s.csm.submatrix σ σ }

private theorem remove_perm (geo : SteerGeo n (g + 1)) (b : Bool) (nf damp : ℝ) (s : CleanscState n g) :
    cleanscRemove (geoPerm σ geo) b nf damp (scPerm σ s) = scPerm σ (cleanscRemove geo b nf damp s) := by
  unfold cleanscRemove scPerm
  simp only [hh_perm, CleanscState.mk.injEq, and_true]
  constructor
  · funext p
    congr 2
    exact eig_perm σ geo.st b nf (geo.r0 p) (geo.rm p) geo.k _ fun i (_ : Fin 1) => conj (cleanscHh geo nf s.csm (argmax s.h) (s.h (argmax s.h)) i)
  · rfl

private theorem loop_perm (geo : SteerGeo n (g + 1)) (b : Bool) (nf damp : ℝ) (stopn : ℕ) (J : ℕ) (s : CleanscState n g) :
    cleanscLoop (geoPerm σ geo) b nf damp stopn J (scPerm σ s) = scPerm σ (cleanscLoop geo b nf damp stopn J s) := by
  induction J generalizing s with
  | zero => rfl
  | succ J ih =>
    unfold cleanscLoop
    dsimp only
    rw [show cleanscPick damp (scPerm σ s) = scPerm σ (cleanscPick damp s) from rfl, show (scPerm σ (cleanscPick damp s)).powers = (cleanscPick damp s).powers from rfl]
    split_ifs
    · rfl
    · rw [remove_perm, ih]

private theorem cleansc_perm (geo : SteerGeo n (g + 1)) (b : Bool) (nf damp : ℝ) (stopn N : ℕ) {C : Matrix (Fin n) (Fin n) ℂ} (hC : C.IsHermitian) :
    (cleanscCalc (geoPerm σ geo) b nf damp stopn N (C.submatrix σ σ)).result = (cleanscCalc geo b nf damp stopn N C).result := by
  unfold cleanscCalc
  have hf : (fun p => fullCsmKernel (geoPerm σ geo).st b nf ((geoPerm σ geo).r0 p) ((geoPerm σ geo).rm p) (geoPerm σ geo).k (C.submatrix σ σ)) =
      fun p => fullCsmKernel geo.st b nf (geo.r0 p) (geo.rm p) geo.k C := by
    funext p
    dsimp only [geoPerm]
    rw [full_perm σ _ _ _ _ _ _ hC]
  rw [hf]
  have := loop_perm σ geo b nf damp stopn (cleanscJ N n) ⟨fun p => fullCsmKernel geo.st b nf (geo.r0 p) (geo.rm p) geo.k C, C, fun _ => 0, []⟩
  have h2 := congrArg CleanscState.result this
  exact h2

/-- **C159** (channels) The order of the channels does not matter: with microphones and channels renumbered together, the conventional beamformer, Capon, DAMAS, DAMAS+,
CLEAN and CLEAN-SC return the same map. -/
theorem C159_channels (rt : BfRoutines n g) (s : BfSet n g) (F i : ℕ) (hC : (s.csm i).IsHermitian) :
    ∀ k ∈ [BfClass.base, .capon, .damas, .damasPlus, .clean, .cleansc], (renumbered σ s).row rt F i k = s.row rt F i k := by
  have hgeo : (renumbered σ s).geo i = geoPerm σ (s.geo i) := rfl
  have hcsm : (renumbered σ s).csm i = (s.csm i).submatrix σ σ := rfl
  have hp : (renumbered σ s).psf i = s.psf i := by
    funext p q
    unfold BfSet.psf
    rw [hgeo]
    dsimp only [geoPerm]
    rw [psf_perm σ]
    rfl
  have hd : (renumbered σ s).dirty i = s.dirty i := by
    funext p
    unfold BfSet.dirty bfCalcPoint
    rw [hgeo, hcsm]
    dsimp only [geoPerm]
    rw [full_perm σ (renumbered σ s).form _ _ _ _ _ hC]
    rfl
  intro k hk
  fin_cases hk
  · simp only [BfSet.row, hd]
  · simp only [BfSet.row]
    congr 1
    funext p
    unfold caponPoint
    rw [hgeo, hcsm, Matrix.inv_submatrix_equiv]
    dsimp only [geoPerm]
    rw [full_perm σ (renumbered σ s).form _ _ _ _ _ hC.inv]
    rfl
  · simp only [BfSet.row, hd, hp]; rfl
  · simp only [BfSet.row, hd, hp]; rfl
  · simp only [BfSet.row, hd, hp]; rfl
  · simp only [BfSet.row]
    rw [hgeo, hcsm]
    congr 1
    exact cleansc_perm σ (s.geo i) s.rDiag _ s.damp s.stopn s.nIter hC

/-! ### Beamformers with eigenvalues -/

private theorem eigh_renumbered {rt : BfRoutines n g} (hrt : Diagonalises rt) {C : Matrix (Fin n) (Fin n) ℂ} (hC : C.IsHermitian) :
    IsEigh (C.submatrix σ σ) ((rt.eigh C).1, Matrix.of fun m l => (rt.eigh C).2 (σ m) l) ∧
    IsEigh (C.submatrix σ σ) ((rt.eigh (C.submatrix σ σ)).1, Matrix.of (rt.eigh (C.submatrix σ σ)).2) :=
  ⟨eigh_perm (hrt C hC) σ, hrt _ (hC.submatrix σ)⟩

private theorem values_renumbered {rt : BfRoutines n g} (hrt : Diagonalises rt) {C : Matrix (Fin n) (Fin n) ℂ} (hC : C.IsHermitian) :
    (rt.eigh (C.submatrix σ σ)).1 = (rt.eigh C).1 :=
  (eigh_values (eigh_renumbered σ hrt hC).1 (eigh_renumbered σ hrt hC).2).symm

private theorem eig_renumbered {rt : BfRoutines n g} (hrt : Diagonalises rt) {C : Matrix (Fin n) (Fin n) ℂ} (hC : C.IsHermitian)
    {l : Fin n} (hl : SimpleValue (rt.eigh C).1 l) (st : Formulation) (b : Bool) (loss r0 : ℝ) (rm : Fin n → ℝ) (k x : ℝ) :
    eigKernel (e := 1) st b loss r0 (fun m => rm (σ m)) k (fun _ => x) (fun m _ => (rt.eigh (C.submatrix σ σ)).2 m l) =
      eigKernel (e := 1) st b loss r0 rm k (fun _ => x) (fun m _ => (rt.eigh C).2 m l) := by
  rw [← eig_perm σ st b loss r0 rm k (fun _ => x) fun m _ => (rt.eigh C).2 m l, C24_eig_kernel, C24_eig_kernel]
  congr 1
  exact (eigh_simple (eigh_renumbered σ hrt hC).1 (eigh_renumbered σ hrt hC).2 hl x).symm

private theorem orth_perm (geo : SteerGeo n (g + 1)) (b : Bool) (nf : ℝ) (eva : Fin n → ℝ) (eve eve' : Fin n → Fin n → ℂ) :
    ∀ (is : List ℤ) (ac : Fin (g + 1) → ℝ), (∀ i ∈ is, ∀ l, pyIndex n i = some l → ∀ p,
        eigKernel (e := 1) geo.st b nf (geo.r0 p) (fun m => geo.rm p (σ m)) geo.k (fun _ => 1) (fun m _ => eve' m l) =
        eigKernel (e := 1) geo.st b nf (geo.r0 p) (geo.rm p) geo.k (fun _ => 1) (fun m _ => eve m l)) →
      orthCalc (geoPerm σ geo) b nf eva eve' is ac = orthCalc geo b nf eva eve is ac
  | [], _, _ => rfl
  | i :: is, ac, h => by
    unfold orthCalc
    cases hi : pyIndex n i with
    | none => rfl
    | some l =>
      dsimp only
      have : (fun p => eigKernel (e := 1) (geoPerm σ geo).st b nf ((geoPerm σ geo).r0 p) ((geoPerm σ geo).rm p) (geoPerm σ geo).k (fun _ => 1) fun m _ => eve' m l) =
          fun p => eigKernel (e := 1) geo.st b nf (geo.r0 p) (geo.rm p) geo.k (fun _ => 1) fun m _ => eve m l :=
        funext (h i List.mem_cons_self l hi)
      rw [this]
      exact orth_perm geo b nf eva eve eve' is _ fun j hj => h j (List.mem_cons_of_mem _ hj)

/-- **C159** (channels, eigenvalues) The same for functional beamforming, the beamformer for one component, orthogonal beamforming with and without grid (if the eigenvalues used
occur once) and MUSIC (if the eigenvalues used are smaller than the others), with a routine that diagonalises Hermitian matrices. -/
theorem C159_eigenvalues {rt : BfRoutines n g} (hrt : Diagonalises rt) (s : BfSet n g) (F i : ℕ) (hC : (s.csm i).IsHermitian) :
    (renumbered σ s).row rt F i .functional = s.row rt F i .functional ∧
    ((∀ l, pyIndex n (eigNa n s.comps) = some l → SimpleValue (rt.eigh (s.csm i)).1 l) → (renumbered σ s).row rt F i .eig = s.row rt F i .eig) ∧
    ((∀ j ∈ s.evaList, ∀ l, pyIndex n j = some l → SimpleValue (rt.eigh (s.csm i)).1 l) → (renumbered σ s).row rt F i .orth = s.row rt F i .orth) ∧
    ((∀ l : Fin n, SimpleValue (rt.eigh (s.csm i)).1 l) → (renumbered σ s).row rt F i .gridless = s.row rt F i .gridless) ∧
    ((∀ j l : Fin n, (j : ℤ) < n - eigNa n s.comps → (n : ℤ) - eigNa n s.comps ≤ l → (rt.eigh (s.csm i)).1 j < (rt.eigh (s.csm i)).1 l) →
      (renumbered σ s).row rt F i .music = s.row rt F i .music) := by
  have hgeo : (renumbered σ s).geo i = geoPerm σ (s.geo i) := rfl
  have hcsm : (renumbered σ s).csm i = (s.csm i).submatrix σ σ := rfl
  have hv := values_renumbered σ hrt hC
  refine ⟨?_, fun hs => ?_, fun hs => ?_, fun hs => ?_, fun hgap => ?_⟩
  · simp only [BfSet.row]
    congr 1
    funext p
    rw [hgeo, hcsm]
    unfold functionalPoint
    dsimp only [geoPerm]
    rw [norm_perm]
    congr 3
    congr 1
    rw [← eig_perm σ s.form false 1 ((s.geo i).r0 p) ((s.geo i).rm p), C24_eig_kernel, C24_eig_kernel]
    show fullCsmKernel s.form _ _ _ _ _ _ = _
    congr 1
    exact (eigh_fun (eigh_renumbered σ hrt hC).1 (eigh_renumbered σ hrt hC).2 fun y => y ^ (1 / s.gamma)).symm
  · simp only [BfSet.row]
    rw [show (renumbered σ s).comps = s.comps from rfl]
    cases hl : pyIndex n (eigNa n s.comps) with
    | none => rfl
    | some l =>
      dsimp only
      congr 1
      funext p
      rw [hgeo, hcsm, hv]
      have := eig_renumbered σ hrt hC (hs l hl) s.form s.rDiag (sigLossNorm s.rDiag s.rDiagNorm n) ((s.geo i).r0 p) ((s.geo i).rm p) (s.geo i).k
        ((rt.eigh (s.csm i)).1 l)
      exact congrArg (fun x : ℝ => if s.rDiag then (if x < 0 then 0 else x) else x) this
  · simp only [BfSet.row]
    rw [hgeo, hcsm, hv]
    show (match orthCalc (geoPerm σ (s.geo i)) s.rDiag (sigLossNorm s.rDiag s.rDiagNorm n) (rt.eigh (s.csm i)).1 (rt.eigh ((s.csm i).submatrix σ σ)).2 s.evaList
      (fun _ => 0) with
      | none => BfRow.indexError
      | some v => .map v) = _
    rw [orth_perm σ (s.geo i) s.rDiag _ _ (rt.eigh (s.csm i)).2 _ s.evaList _ fun j hj l hl p => eig_renumbered σ hrt hC (hs j hj l hl) _ _ _ _ _ _ _]
    rfl
  · have hfun : ∀ (l : ℤ) (x : Fin 3 → ℝ), eigKernel (e := 1) s.form s.rDiag (sigLossNorm s.rDiag 1 n) (pointDist (clipBounds s.bounds x) 0)
          (fun m => pointDist (clipBounds s.bounds x) (s.mpos (σ m))) (s.geo i).k (fun _ => 1) (fun m _ => rt.col ((s.csm i).submatrix σ σ) l m) =
        eigKernel (e := 1) s.form s.rDiag (sigLossNorm s.rDiag 1 n) (pointDist (clipBounds s.bounds x) 0)
          (fun m => pointDist (clipBounds s.bounds x) (s.mpos m)) (s.geo i).k (fun _ => 1) (fun m _ => rt.col (s.csm i) l m) := by
      intro l x
      unfold BfRoutines.col
      cases hl : pyIndex n l with
      | none => exact eig_perm σ s.form s.rDiag _ _ (fun m => pointDist (clipBounds s.bounds x) (s.mpos m)) _ _ fun _ _ => 0
      | some l =>
        exact eig_renumbered σ hrt hC (hs l) s.form s.rDiag _ _ (fun m => pointDist (clipBounds s.bounds x) (s.mpos m)) _ _
    have hval : ∀ l : ℤ, rt.val ((s.csm i).submatrix σ σ) l = rt.val (s.csm i) l := by
      intro l
      unfold BfRoutines.val
      rw [hv]
    simp only [BfSet.row]
    show BfRow.gridless (gridlessCalc (fun _ l => rt.shgo (fun x => -eigKernel (e := 1) s.form s.rDiag (sigLossNorm s.rDiag 1 n) (pointDist (clipBounds s.bounds x) 0)
          (fun m => pointDist (clipBounds s.bounds x) (s.mpos (σ m))) (s.geo i).k (fun _ => 1) (fun m _ => rt.col ((s.csm i).submatrix σ σ) l m)) s.bounds s.shgo)
      (fun _ l => rt.val ((s.csm i).submatrix σ σ) l / n) _ _ _ _) = _
    simp only [hfun, hval]
    rfl
  · simp only [BfSet.row]
    congr 1
    congr 1
    funext p
    rw [hgeo, hcsm, hv, show (renumbered σ s).comps = s.comps from rfl]
    dsimp only [geoPerm]
    rw [← eig_perm σ s.form, C24_eig_kernel, C24_eig_kernel]
    show fullCsmKernel s.form _ _ _ _ _ _ = _
    congr 1
    have := eigh_below (eigh_renumbered σ hrt hC).1 (eigh_renumbered σ hrt hC).2 (fun l => (l : ℤ) < n - eigNa n s.comps)
      fun j l hj hl => hgap j l hj (not_lt.1 hl)
    rw [hv] at this
    exact this.symm

end Channels

/-! ### Grid points -/

private theorem music_reorder (τ : Equiv.Perm (Fin (g + 1))) (x : Fin (g + 1) → ℝ) : musicMap (fun p => x (τ p)) = fun p => musicMap x (τ p) := by
  funext p
  unfold musicMap
  have h1 := (argmax_isFirstMax fun i => -x i).1
  have h2 := (argmax_isFirstMax fun i => -x (τ i)).1
  have e : -x (τ (argmax fun i => -x (τ i))) = -x (argmax fun i => -x i) := by
    refine le_antisymm (h1 _) ?_
    have := h2 (τ.symm (argmax fun i => -x i))
    simpa using this
  simp only [e]

/-- **C159** (grid) With the grid points in another order the conventional beamformer, functional beamforming, Capon, the beamformer for one component and MUSIC
return the same values, in the other order. -/
theorem C159_grid (rt : BfRoutines n g) (s : BfSet n g) (τ : Equiv.Perm (Fin (g + 1))) (F i : ℕ) :
    ∀ k ∈ [BfClass.base, .functional, .capon, .eig, .music], ∀ v, s.row rt F i k = .map v → (reordered τ s).row rt F i k = .map fun p => v (τ p) := by
  intro k hk v h
  fin_cases hk
  · simp only [BfSet.row, BfRow.map.injEq] at h ⊢
    subst h; rfl
  · simp only [BfSet.row, BfRow.map.injEq] at h ⊢
    subst h; rfl
  · simp only [BfSet.row, BfRow.map.injEq] at h ⊢
    subst h; rfl
  · simp only [BfSet.row] at h ⊢
    rw [show (reordered τ s).comps = s.comps from rfl]
    cases hl : pyIndex n (eigNa n s.comps) with
    | none => rw [hl] at h; exact absurd h (by simp)
    | some l =>
      rw [hl] at h
      simp only [BfRow.map.injEq] at h ⊢
      subst h; rfl
  · simp only [BfSet.row, BfRow.map.injEq] at h ⊢
    subst h
    rw [← music_reorder]
    rfl


private theorem argmax_reorder (τ : Equiv.Perm (Fin (g + 1))) {x : Fin (g + 1) → ℝ} {q : Fin (g + 1)} (h : ∀ p, p ≠ q → x p < x q) :
    argmax (fun p => x (τ p)) = τ.symm q ∧ argmax x = q := by
  have h1 := (argmax_isFirstMax fun i => x (τ i)).1
  have h2 := (argmax_isFirstMax x).1
  constructor
  · rw [Equiv.eq_symm_apply]
    by_contra hne
    have := h1 (τ.symm q)
    simp only [Equiv.apply_symm_apply] at this
    exact absurd (h _ hne) (not_lt.2 this)
  · by_contra hne
    exact absurd (h _ hne) (not_lt.2 (h2 q))

/-- **C159** (grid, orthogonal beamforming) The same for orthogonal beamforming, if the map of every eigenvector has only one maximum. -/
theorem C159_orth (rt : BfRoutines n g) (s : BfSet n g) (τ : Equiv.Perm (Fin (g + 1))) (F i : ℕ)
    (hmax : ∀ j ∈ s.evaList, ∀ l, pyIndex n j = some l → ∃ q, ∀ p, p ≠ q →
      eigKernel (e := 1) s.form s.rDiag (sigLossNorm s.rDiag s.rDiagNorm n) ((s.geo i).r0 p) ((s.geo i).rm p) (s.geo i).k (fun _ => 1) (fun m _ => (rt.eigh (s.csm i)).2 m l) <
      eigKernel (e := 1) s.form s.rDiag (sigLossNorm s.rDiag s.rDiagNorm n) ((s.geo i).r0 q) ((s.geo i).rm q) (s.geo i).k (fun _ => 1) (fun m _ => (rt.eigh (s.csm i)).2 m l)) :
    ∀ v, s.row rt F i .orth = .map v → (reordered τ s).row rt F i .orth = .map fun p => v (τ p) := by
  have key : ∀ (is : List ℤ) (ac : Fin (g + 1) → ℝ), (∀ j ∈ is, j ∈ s.evaList) →
      orthCalc ((reordered τ s).geo i) s.rDiag (sigLossNorm s.rDiag s.rDiagNorm n) (rt.eigh (s.csm i)).1 (rt.eigh (s.csm i)).2 is (fun p => ac (τ p)) =
      (orthCalc (s.geo i) s.rDiag (sigLossNorm s.rDiag s.rDiagNorm n) (rt.eigh (s.csm i)).1 (rt.eigh (s.csm i)).2 is ac).map fun v p => v (τ p) := by
    intro is
    induction is with
    | nil => exact fun _ _ => rfl
    | cons j js ih =>
      intro ac hj
      unfold orthCalc
      cases hl : pyIndex n j with
      | none => rfl
      | some l =>
        dsimp only
        obtain ⟨q, hq⟩ := hmax j (hj j List.mem_cons_self) l hl
        obtain ⟨m1, m2⟩ := argmax_reorder τ (x := fun p => eigKernel (e := 1) s.form s.rDiag (sigLossNorm s.rDiag s.rDiagNorm n) ((s.geo i).r0 p) ((s.geo i).rm p) (s.geo i).k
          (fun _ => 1) (fun m _ => (rt.eigh (s.csm i)).2 m l)) hq
        rw [← ih _ fun k hk => hj k (List.mem_cons_of_mem _ hk)]
        congr 1
        have a1 : argmax (fun p => eigKernel (e := 1) ((reordered τ s).geo i).st s.rDiag (sigLossNorm s.rDiag s.rDiagNorm n) (((reordered τ s).geo i).r0 p)
          (((reordered τ s).geo i).rm p) ((reordered τ s).geo i).k (fun _ => 1) (fun m _ => (rt.eigh (s.csm i)).2 m l)) = τ.symm q := m1
        have a2 : argmax (fun p => eigKernel (e := 1) (s.geo i).st s.rDiag (sigLossNorm s.rDiag s.rDiagNorm n) ((s.geo i).r0 p)
          ((s.geo i).rm p) (s.geo i).k (fun _ => 1) (fun m _ => (rt.eigh (s.csm i)).2 m l)) = q := m2
        rw [a1, a2]
        funext p
        by_cases hp : τ p = q
        · rw [hp, show p = τ.symm q by rw [← hp, Equiv.symm_apply_apply], Function.update_self, Function.update_self, Equiv.apply_symm_apply]
        · rw [Function.update_of_ne hp, Function.update_of_ne (by rintro rfl; exact hp (Equiv.apply_symm_apply _ _))]
  intro v h
  simp only [BfSet.row] at h ⊢
  have := key s.evaList (fun _ => 0) fun _ h => h
  show (match orthCalc ((reordered τ s).geo i) s.rDiag (sigLossNorm s.rDiag s.rDiagNorm n) (rt.eigh (s.csm i)).1 (rt.eigh (s.csm i)).2 s.evaList (fun _ => 0) with
      | none => BfRow.indexError
      | some v => .map v) = _
  rw [this]
  cases ho : orthCalc (s.geo i) s.rDiag (sigLossNorm s.rDiag s.rDiagNorm n) (rt.eigh (s.csm i)).1 (rt.eigh (s.csm i)).2 s.evaList (fun _ => 0) with
  | none => rw [ho] at h; exact absurd h (by simp)
  | some w =>
    rw [ho] at h
    simp only [BfRow.map.injEq] at h
    subst h
    rfl

/-- Two microphones, two grid points, both symmetric about the third axis; independent noise in the channels. -/
private noncomputable def mirrorEx : BfSet 2 1 :=
  { oneEx .trueLevel 0 1 with freqs := fun _ => 0, csm := fun _ => 1, gpos := ![![1, 0, 4], ![-1, 0, 4]], damp := 1, nIter := 1 }

private theorem mirror_dist : pointDist ![1, 0, 4] ![3, 0, 0] = √20 ∧ pointDist ![1, 0, 4] ![-3, 0, 0] = √32 ∧
    pointDist ![-1, 0, 4] ![3, 0, 0] = √32 ∧ pointDist ![-1, 0, 4] ![-3, 0, 0] = √20 := by
  unfold pointDist
  refine ⟨?_, ?_, ?_, ?_⟩ <;> congr 1 <;> simp <;> norm_num

private theorem phase_zero' : phase 0 = 1 := by simp [phase]

private theorem mirror_psf {x y u v : ℝ} (hx : 0 < x) (hy : 0 < y) (hx2 : x * x + y * y = 52) (hxy : x * x * (y * y) = 640) (hu : u = x ∧ v = y ∨ u = y ∧ v = x) :
    psfKernel .trueLevel 1 ![x, y] 1 ![u, v] 0 = if u = x then 1 else 160 / 169 := by
  have hs : 1 / (x * x) + 1 / (y * y) = 13 / 160 := by
    field_simp
    nlinarith [hxy, hx2]
  have key : psfKernel .trueLevel 1 ![x, y] 1 ![u, v] 0 = (1 / (u * x) + 1 / (v * y)) ^ 2 / (13 / 160) ^ 2 := by
    have : (∑ m : Fin 2, phase (0 * ((![x, y] : Fin 2 → ℝ) m - (![u, v] : Fin 2 → ℝ) m)) / (((![u, v] : Fin 2 → ℝ) m : ℝ) : ℂ) / (((![x, y] : Fin 2 → ℝ) m : ℝ) : ℂ)) =
        ((1 / (u * x) + 1 / (v * y) : ℝ) : ℂ) := by
      rw [Fin.sum_univ_two]
      simp only [zero_mul, phase_zero', Matrix.cons_val_zero, Matrix.cons_val_one]
      push_cast
      rw [div_div, div_div]
    simp only [psfKernel]
    rw [this, Complex.conj_ofReal, ← Complex.ofReal_mul, Complex.ofReal_re, Fin.sum_univ_two]
    simp only [Matrix.cons_val_zero, Matrix.cons_val_one]
    rw [hs]
    ring
  rw [key]
  rcases hu with ⟨rfl, rfl⟩ | ⟨rfl, rfl⟩
  · rw [if_pos rfl, hs]
    norm_num
  · have hne : u ≠ v := by
      rintro rfl
      nlinarith
    rw [if_neg hne, show 1 / (u * v) + 1 / (v * u) = 2 / (u * v) by field_simp; norm_num]
    rw [div_pow, show (u * v) ^ 2 = 640 by rw [← hxy]; ring]
    norm_num

private theorem mirror_dirty {x y : ℝ} (hx : 0 < x) (hy : 0 < y) (hx2 : x * x + y * y = 52) (hxy : x * x * (y * y) = 640) :
    bfCalcPoint .trueLevel false 0 1 ![x, y] 0 (1 : Matrix (Fin 2) (Fin 2) ℂ) = 160 / 13 := by
  have hs : 1 / (x * x) + 1 / (y * y) = 13 / 160 := by
    field_simp
    nlinarith [hxy, hx2]
  have hp : scalarProdFull (1 : Matrix (Fin 2) (Fin 2) ℂ) false (kernelSteer .trueLevel ![x, y] 0) = 1 / (x * x) + 1 / (y * y) := by
    unfold scalarProdFull
    simp only [Fin.sum_univ_two, Bool.false_eq_true, if_false]
    rw [show (Finset.univ.filter fun m2 : Fin 2 => m2 < 0) = ∅ by decide, show (Finset.univ.filter fun m2 : Fin 2 => m2 < 1) = {0} by decide]
    simp only [Finset.sum_empty, Finset.sum_singleton, Matrix.one_apply_eq, kernelSteer, zero_mul, phase_zero', Matrix.cons_val_zero, Matrix.cons_val_one,
      Matrix.one_apply_ne (show (0 : Fin 2) ≠ 1 by decide), Complex.zero_re, mul_zero, zero_add, one_mul, map_div₀, map_one, Complex.conj_ofReal]
    rw [div_mul_div_comm, div_mul_div_comm, one_mul, ← Complex.ofReal_mul, ← Complex.ofReal_mul, ← Complex.ofReal_one, ← Complex.ofReal_div, ← Complex.ofReal_div]
    simp
  unfold bfCalcPoint fullCsmKernel
  simp only [hp, Bool.false_eq_true, if_false, kernelResult, helpNormalize, Fin.sum_univ_two, Matrix.cons_val_zero, Matrix.cons_val_one, hs, sigLossNorm]
  norm_num

private theorem damas_two {A : Fin 2 → Fin 2 → ℝ} {y : Fin 2 → ℝ} (h : ∀ p q, A p q = if p = q then 1 else 160 / 169) (hy : ∀ p, y p = 160 / 13) :
    damasCalc A y false 1 1 0 ≠ damasCalc A y false 1 1 1 := by
  simp only [damasCalc, damasSolve, damasSweep, damasStep, List.finRange_succ, List.finRange_zero, List.map_cons, List.map_nil, List.foldl_cons, List.foldl_nil,
    Fin.sum_univ_two, h, hy, Fin.succ_zero_eq_one, Bool.false_eq_true, if_false]
  norm_num [Function.update]

/-- **C159 is violated** for DAMAS (Gauss-Seidel iteration in the order of the grid points): the result depends on the order of the grid points. Here the
arrangement is symmetric, and the two points get different values, the first one always the same. -/
theorem C159_damas_violated (rt : BfRoutines 2 1) : ∃ (s : BfSet 2 1) (τ : Equiv.Perm (Fin 2)) (v w : Fin 2 → ℝ),
    s.row rt 1 0 .damas = .map v ∧ (reordered τ s).row rt 1 0 .damas = .map w ∧ w = v ∧ w ≠ fun p => v (τ p) := by
  have d := mirror_dist
  have hx : 0 < √(20 : ℝ) := by positivity
  have hy : 0 < √(32 : ℝ) := by positivity
  have e1 : √(20 : ℝ) * √20 = 20 := Real.mul_self_sqrt (by norm_num)
  have e2 : √(32 : ℝ) * √32 = 32 := Real.mul_self_sqrt (by norm_num)
  have hne : √(20 : ℝ) ≠ √32 := fun h => by rw [h, e2] at e1; norm_num at e1
  have r0 : (mirrorEx.geo 0).rm 0 = ![√20, √32] := by
    funext m
    match m with
    | 0 => exact d.1
    | 1 => exact d.2.1
  have r1 : (mirrorEx.geo 0).rm 1 = ![√32, √20] := by
    funext m
    match m with
    | 0 => exact d.2.2.1
    | 1 => exact d.2.2.2
  have hk : (mirrorEx.geo 0).k = 0 := by
    show 2 * Real.pi * 0 / 343 = 0
    simp
  have hpsf : ∀ p q, mirrorEx.psf 0 p q = if p = q then 1 else 160 / 169 := by
    intro p q
    unfold BfSet.psf
    dsimp only
    rw [hk, show mirrorEx.form = .trueLevel from rfl, show ∀ p, (mirrorEx.geo 0).r0 p = 1 from fun _ => rfl, show ∀ p, (mirrorEx.geo 0).r0 p = 1 from fun _ => rfl]
    match p, q with
    | 0, 0 => rw [r0, mirror_psf hx hy (by rw [e1, e2]; norm_num) (by rw [e1, e2]; norm_num) (.inl ⟨rfl, rfl⟩), if_pos rfl, if_pos rfl]
    | 0, 1 => rw [r0, r1, mirror_psf hx hy (by rw [e1, e2]; norm_num) (by rw [e1, e2]; norm_num) (.inr ⟨rfl, rfl⟩), if_neg hne.symm, if_neg (by decide)]
    | 1, 0 => rw [r0, r1, mirror_psf hy hx (by rw [e1, e2]; norm_num) (by rw [e1, e2]; norm_num) (.inr ⟨rfl, rfl⟩), if_neg hne, if_neg (by decide)]
    | 1, 1 => rw [r1, mirror_psf hy hx (by rw [e1, e2]; norm_num) (by rw [e1, e2]; norm_num) (.inl ⟨rfl, rfl⟩), if_pos rfl, if_pos rfl]
  have hdirty : ∀ p, mirrorEx.dirty 0 p = 160 / 13 := by
    intro p
    unfold BfSet.dirty
    rw [hk]
    match p with
    | 0 => rw [r0]; exact mirror_dirty hx hy (by rw [e1, e2]; norm_num) (by rw [e1, e2]; norm_num)
    | 1 => rw [r1]; exact mirror_dirty hy hx (by rw [e1, e2]; norm_num) (by rw [e1, e2]; norm_num)
  have hp' : (reordered (Equiv.swap 0 1) mirrorEx).psf 0 = mirrorEx.psf 0 := by
    funext p q
    rw [show (reordered (Equiv.swap 0 1) mirrorEx).psf 0 p q = mirrorEx.psf 0 (Equiv.swap 0 1 p) (Equiv.swap 0 1 q) from rfl, hpsf, hpsf]
    simp only [(Equiv.swap (0 : Fin 2) 1).injective.eq_iff]
  have hd' : (reordered (Equiv.swap 0 1) mirrorEx).dirty 0 = mirrorEx.dirty 0 := by
    funext p
    rw [show (reordered (Equiv.swap 0 1) mirrorEx).dirty 0 p = mirrorEx.dirty 0 (Equiv.swap 0 1 p) from rfl, hdirty, hdirty]
  refine ⟨mirrorEx, Equiv.swap 0 1, damasCalc (mirrorEx.psf 0) (mirrorEx.dirty 0) false 1 1, _, rfl, rfl, ?_, ?_⟩
  · rw [hp', hd']
    rfl
  · rw [hp', hd']
    intro h
    exact damas_two hpsf hdirty (congrFun h 0)

/-! ### The hypotheses are met -/

example (rt : BfRoutines 2 1) : (renumbered (Equiv.swap 0 1) (oneEx .inverse 3 1)).row rt 1 0 .cleansc = (oneEx .inverse 3 1).row rt 1 0 .cleansc :=
  C159_channels _ rt _ 1 0 (oneEx_psd _ (by norm_num) (by norm_num)).1 _ (by simp)

example {rt : BfRoutines 2 1} (hrt : Diagonalises rt) :
    (renumbered (Equiv.swap 0 1) (oneEx .inverse 3 0)).row rt 1 0 .functional = (oneEx .inverse 3 0).row rt 1 0 .functional ∧
    (renumbered (Equiv.swap 0 1) (oneEx .inverse 3 0)).row rt 1 0 .gridless = (oneEx .inverse 3 0).row rt 1 0 .gridless ∧
    (renumbered (Equiv.swap 0 1) (oneEx .inverse 3 0)).row rt 1 0 .music = (oneEx .inverse 3 0).row rt 1 0 .music := by
  obtain ⟨h1, -, -, h4, h5⟩ := C159_eigenvalues (Equiv.swap 0 1) hrt (oneEx .inverse 3 0) 1 0 (oneEx_psd _ (by norm_num) (by norm_num)).1
  refine ⟨h1, h4 (oneEx_simple hrt _), h5 fun j l hj hl => ?_⟩
  rw [show (((2 : ℕ) : ℤ) - eigNa (2 : ℕ) (oneEx .inverse 3 0).comps) = 1 by decide] at hj hl
  rw [oneEx_values hrt]
  match j, l with
  | 0, 1 => norm_num
  | 0, 0 => simp at hl
  | 1, _ => simp at hj

example (rt : BfRoutines 2 1) : (reordered (Equiv.swap 0 1) (oneEx .trueLevel 3 0)).row rt 1 0 .base = .map fun p => (oneEx .trueLevel 3 0).dirty 0 (Equiv.swap 0 1 p) :=
  C159_grid rt _ _ 1 0 .base (by simp) _ rfl

/-- One microphone, two grid points at different distances, formulation 'inverse'. -/
private noncomputable def nearFar : BfSet 1 1 :=
  { freqs := fun _ => 1000, csm := fun _ => 1, gpos := ![![0, 0, 1], ![0, 0, 2]], mpos := fun _ => ![0, 0, 0], c := 343, ref := .dist 1, form := .inverse,
    invForm := .inverse, rDiag := false, rDiagNorm := 0, precision := "", psfPrecision := "", gamma := 1, comps := 1, evaList := [-1], damp := 1, stopn := 3, nIter := 1,
    alpha := 0, unitMult := 1, method := "", epsPerc := 0, pnorm := 1, beta := 0, first := 0, bounds := fun _ => (0, 1), shgo := "" }

private noncomputable def rtNear : BfRoutines 1 1 :=
  ⟨fun _ => (fun _ => 1, fun _ _ => 1), fun _ _ _ _ _ y => y, fun _ _ _ _ _ _ _ _ => 0, fun _ _ _ _ _ _ _ _ _ _ => ⟨fun _ => 0, []⟩, fun _ _ _ => 0⟩

private theorem near_value (p : Fin 2) : eigKernel (e := 1) nearFar.form nearFar.rDiag (sigLossNorm nearFar.rDiag nearFar.rDiagNorm 1) ((nearFar.geo 0).r0 p)
    ((nearFar.geo 0).rm p) (nearFar.geo 0).k (fun _ => 1) (fun m _ => (rtNear.eigh (nearFar.csm 0)).2 m 0) = (![1, 4] : Fin 2 → ℝ) p := by
  have hs : ∀ (r k : ℝ), ((phase (k * r) * (r : ℂ)) * conj (phase (k * r) * (r : ℂ))).re = r * r := by
    intro r k
    rw [map_mul, Complex.conj_ofReal, mul_mul_mul_comm, phase_mul_conj, one_mul, ← Complex.ofReal_mul, Complex.ofReal_re]
  have hr : (nearFar.geo 0).rm p 0 * (nearFar.geo 0).rm p 0 = (![1, 4] : Fin 2 → ℝ) p := by
    simp only [BfSet.geo, nearFar, pointDist]
    rw [Real.mul_self_sqrt (by positivity)]
    match p with
    | 0 => simp
    | 1 => simp; norm_num
  rw [← hr]
  unfold eigKernel scalarProdEig
  simp only [Finset.univ_unique, Fin.default_eq_zero, Finset.sum_singleton, rtNear, map_one, one_mul, mul_one,
    show nearFar.form = .inverse from rfl, show nearFar.rDiag = false from rfl, Bool.false_eq_true, if_false, kernelSteer, kernelResult, hs, sigLossNorm,
    show (nearFar.geo 0).r0 p = 1 from rfl]
  norm_num

example (τ : Equiv.Perm (Fin 2)) (v : Fin 2 → ℝ) : nearFar.row rtNear 1 0 .orth = .map v → (reordered τ nearFar).row rtNear 1 0 .orth = .map fun p => v (τ p) := by
  refine C159_orth rtNear nearFar τ 1 0 (fun j _ l _ => ⟨1, fun p hp => ?_⟩) v
  rw [Fin.fin_one_eq_zero l, near_value, near_value]
  match p with
  | 0 => norm_num
  | 1 => exact absurd rfl hp

end Acoular
