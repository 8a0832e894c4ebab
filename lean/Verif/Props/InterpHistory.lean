import Verif.Model.InterpHistory
import Verif.Props.Interp

/-!
# C146, C147: the settings of a spatial interpolator and their effect
-/

namespace Acoular

variable {G Q C : Type*}

/-- The settings as the user made them: the last assigned values; without an assignment the virtual microphones are the
real ones. -/
structure Spec.Wanted (G Q : Type*) where
  mics : G
  virt : Option G
  dim : ArrayDim
  method : InterpMethod
  q : Q
  zero : Bool
  numIdw : ℤ
  pWeight : ℝ

/-- One assignment; reading and interpolating change nothing. -/
def Spec.Wanted.after (w : Spec.Wanted G Q) : InterpOp G Q → Spec.Wanted G Q
  | .mics g => { w with mics := g }
  | .virt g => { w with virt := some g }
  | .dim d => { w with dim := d }
  | .q q => { w with q := q }
  | .zero b => { w with zero := b }
  | .method m => { w with method := m }
  | .numIdw n => { w with numIdw := n }
  | .pWeight p => { w with pWeight := p }
  | .numChannels => w
  | .sample _ _ => w

/-- The microphones for which values are wanted. -/
def Spec.Wanted.targets (w : Spec.Wanted G Q) : G := w.virt.getD w.mics

/-- The row that the settings ask for: by coordinates computed from these settings. -/
def Spec.Wanted.row (lib : InterpLib G Q C) (w : Spec.Wanted G Q) (row : List ℝ) (phi : ℝ) : Except PyErr (List (Option ℝ)) :=
  interpCore lib w.dim w.method w.zero w.numIdw w.pWeight (lib.size w.targets)
    (lib.coords w.mics w.targets w.dim w.q w.zero) row phi

/-- A fresh object with the same settings. -/
def Spec.Wanted.fresh (w : Spec.Wanted G Q) : InterpObj G Q C :=
  ⟨⟨w.mics, w.virt, w.dim, w.method, w.q, w.zero, w.numIdw, w.pWeight⟩, none⟩

/-- An assignment. -/
def Spec.IsAssignment : InterpOp G Q → Prop
  | .numChannels => False
  | .sample _ _ => False
  | _ => True

/-- An assignment to the geometry: microphones, dimension, transformation or the additional point. -/
def Spec.IsGeometry : InterpOp G Q → Prop
  | .mics _ => True
  | .virt _ => True
  | .dim _ => True
  | .q _ => True
  | .zero _ => True
  | _ => False

open Spec

/-! ## C146: the current settings -/

private theorem run_append (lib : InterpLib G Q C) (o : InterpObj G Q C) (a b : List (InterpOp G Q)) :
    o.run lib (a ++ b) = (o.run lib a).run lib b := by
  induction a generalizing o with
  | nil => rfl
  | cons x a ih => exact ih _

private theorem run_assign (lib : InterpLib G Q C) : ∀ (h : List (InterpOp G Q)) (w : Wanted G Q), (∀ op ∈ h, IsAssignment op) →
    (w.fresh : InterpObj G Q C).run lib h = (h.foldl Wanted.after w).fresh
  | [], _, _ => rfl
  | op :: h, w, hh => by
    have h1 : ((w.fresh : InterpObj G Q C).step lib op).1 = (w.after op).fresh := by
      have := hh op (by simp)
      cases op <;> first | rfl | exact this.elim
    show (((w.fresh : InterpObj G Q C).step lib op).1).run lib h = _
    rw [h1, run_assign lib h _ fun o ho => hh o (List.mem_cons_of_mem _ ho)]
    rfl

/-- The object agrees with the settings, and kept coordinates are those of the settings. -/
private def Agrees (lib : InterpLib G Q C) (o : InterpObj G Q C) (w : Wanted G Q) : Prop :=
  o.set.mics = w.mics ∧ o.set.getVirt.1 = w.targets ∧ o.set.dim = w.dim ∧ o.set.method = w.method ∧ o.set.q = w.q ∧
    o.set.zero = w.zero ∧ o.set.numIdw = w.numIdw ∧ o.set.pWeight = w.pWeight ∧
    ∀ c, o.kept = some c → c = lib.coords w.mics w.targets w.dim w.q w.zero

private theorem getVirt_twice (s : InterpSet G Q) : s.getVirt.2.getVirt.1 = s.getVirt.1 ∧ s.getVirt.2.mics = s.mics ∧
    s.getVirt.2.dim = s.dim ∧ s.getVirt.2.method = s.method ∧ s.getVirt.2.q = s.q ∧ s.getVirt.2.zero = s.zero ∧
    s.getVirt.2.numIdw = s.numIdw ∧ s.getVirt.2.pWeight = s.pWeight := by
  unfold InterpSet.getVirt
  cases h : s.virt <;> simp [h]

private theorem getVirt_fst (s : InterpSet G Q) : s.getVirt.1 = s.virt.getD s.mics := by
  unfold InterpSet.getVirt
  cases h : s.virt <;> simp

private theorem agrees_step (lib : InterpLib G Q C) (o : InterpObj G Q C) (w : Wanted G Q) (h : Agrees lib o w)
    (op : InterpOp G Q) (hop : ¬IsGeometry op) : Agrees lib (o.step lib op).1 (w.after op) := by
  obtain ⟨h1, h2, h3, h4, h5, h6, h7, h8, h9⟩ := h
  obtain ⟨g1, g2, g3, g4, g5, g6, g7, g8⟩ := getVirt_twice o.set
  cases op with
  | mics => exact absurd trivial hop
  | virt => exact absurd trivial hop
  | dim => exact absurd trivial hop
  | q => exact absurd trivial hop
  | zero => exact absurd trivial hop
  | method m => exact ⟨h1, by rw [getVirt_fst] at h2 ⊢; exact h2, h3, rfl, h5, h6, h7, h8, h9⟩
  | numIdw m => exact ⟨h1, by rw [getVirt_fst] at h2 ⊢; exact h2, h3, h4, h5, h6, rfl, h8, h9⟩
  | pWeight m => exact ⟨h1, by rw [getVirt_fst] at h2 ⊢; exact h2, h3, h4, h5, h6, h7, rfl, h9⟩
  | numChannels =>
    exact ⟨g2.trans h1, g1.trans h2, g3.trans h3, g4.trans h4, g5.trans h5, g6.trans h6, g7.trans h7, g8.trans h8, h9⟩
  | sample row phi =>
    refine ⟨g2.trans h1, g1.trans h2, g3.trans h3, g4.trans h4, g5.trans h5, g6.trans h6, g7.trans h7, g8.trans h8, ?_⟩
    intro c hc
    simp only [InterpObj.step, Option.some.injEq] at hc
    rw [← hc]
    cases hk : o.kept with
    | none =>
      simp only [Option.getD_none]
      rw [g2, h1, h2, g3, h3, g5, h5, g6, h6]; rfl
    | some c' => exact h9 c' hk

private theorem agrees_run (lib : InterpLib G Q C) : ∀ (h : List (InterpOp G Q)) (o : InterpObj G Q C) (w : Wanted G Q),
    Agrees lib o w → (∀ op ∈ h, ¬IsGeometry op) → Agrees lib (o.run lib h) (h.foldl Wanted.after w)
  | [], _, _, ha, _ => ha
  | op :: h, o, w, ha, hh =>
    agrees_run lib h _ _ (agrees_step lib o w ha op (hh op (by simp))) fun p hp => hh p (List.mem_cons_of_mem _ hp)

private theorem agrees_out (lib : InterpLib G Q C) (o : InterpObj G Q C) (w : Wanted G Q) (h : Agrees lib o w) :
    (∀ row phi, (o.step lib (.sample row phi)).2 = .row (w.row lib row phi)) ∧
      (o.step lib .numChannels).2 = .count (lib.size w.targets) := by
  obtain ⟨h1, h2, h3, h4, h5, h6, h7, h8, h9⟩ := h
  obtain ⟨g1, g2, g3, g4, g5, g6, g7, g8⟩ := getVirt_twice o.set
  constructor
  · intro row phi
    simp only [InterpObj.step, Wanted.row]
    congr 1
    have hc : o.kept.getD (lib.coords o.set.getVirt.2.mics o.set.getVirt.1 o.set.getVirt.2.dim o.set.getVirt.2.q o.set.getVirt.2.zero)
        = lib.coords w.mics w.targets w.dim w.q w.zero := by
      cases hk : o.kept with
      | none => simp only [Option.getD_none]; rw [g2, h1, h2, g3, h3, g5, h5, g6, h6]
      | some c' => exact h9 c' hk
    rw [hc, g3, h3, g4, h4, g6, h6, g7, h7, g8, h8, h2]
  · simp only [InterpObj.step, h2]

/-- If all assignments to the geometry come before the first use, every interpolated row is that of the settings: first any
assignments, then rows, readings of the number of channels and assignments of method, number of neighbours and exponent in any
order. -/
theorem C146_settings_partial (lib : InterpLib G Q C) (w : Wanted G Q) (setup use : List (InterpOp G Q))
    (hs : ∀ op ∈ setup, IsAssignment op) (hu : ∀ op ∈ use, ¬IsGeometry op) :
    let o : InterpObj G Q C := w.fresh.run lib (setup ++ use)
    let now := (setup ++ use).foldl Wanted.after w
    (∀ row phi, (o.step lib (.sample row phi)).2 = .row (now.row lib row phi)) ∧
      (o.step lib .numChannels).2 = .count (lib.size now.targets) := by
  intro o now
  refine agrees_out lib o now ?_
  have h1 : o = ((w.fresh : InterpObj G Q C).run lib setup).run lib use := run_append lib _ _ _
  have h2 : now = use.foldl Wanted.after (setup.foldl Wanted.after w) := List.foldl_append
  rw [h1, h2, run_assign lib setup w hs]
  refine agrees_run lib use _ _ ?_ hu
  refine ⟨rfl, ?_, rfl, rfl, rfl, rfl, rfl, rfl, by intro c hc; cases hc⟩
  generalize setup.foldl Wanted.after w = w'
  cases hv : w'.virt <;> simp [Wanted.fresh, InterpSet.getVirt, Wanted.targets, hv]

private theorem kept_run (lib : InterpLib G Q C) (c : C) : ∀ (h : List (InterpOp G Q)) (o : InterpObj G Q C), o.kept = some c →
    (o.run lib h).kept = some c
  | [], _, ho => ho
  | op :: h, o, ho => by
    refine kept_run lib c h _ ?_
    cases op <;> first | exact ho | simp [InterpObj.step, ho]

/-- What the code does in every history: the coordinates are those of the settings at the first interpolated row, whatever is
assigned later; dimension, method and the number of virtual microphones are the current ones. -/
theorem C146_coordinates (lib : InterpLib G Q C) (w : Wanted G Q) (setup later : List (InterpOp G Q)) (row0 : List ℝ) (phi0 : ℝ)
    (hs : ∀ op ∈ setup, IsAssignment op) (row : List ℝ) (phi : ℝ) :
    let first := setup.foldl Wanted.after w
    let o : InterpObj G Q C := w.fresh.run lib (setup ++ .sample row0 phi0 :: later)
    (o.step lib (.sample row phi)).2 = .row (interpCore lib o.set.dim o.set.method o.set.zero o.set.numIdw o.set.pWeight
      (lib.size o.set.getVirt.1) (lib.coords first.mics first.targets first.dim first.q first.zero) row phi) := by
  intro first o
  have hk : o.kept = some (lib.coords first.mics first.targets first.dim first.q first.zero) := by
    show ((w.fresh : InterpObj G Q C).run lib (setup ++ _ :: later)).kept = _
    rw [run_append, run_assign lib setup w hs]
    refine kept_run lib _ later _ ?_
    show some _ = some _
    congr 1
    change (first.fresh : InterpObj G Q C).kept.getD _ = _
    cases hv : first.virt <;> simp [Wanted.fresh, InterpSet.getVirt, Wanted.targets, hv, first]
  obtain ⟨g1, g2, g3, g4, g5, g6, g7, g8⟩ := getVirt_twice o.set
  simp only [InterpObj.step, hk, Option.getD_some, g3, g4, g6, g7, g8]

/-- The microphones at the ends of a diameter. -/
private noncomputable def right : Fin 3 → ℝ := ![1, 0, 0]
private noncomputable def left : Fin 3 → ℝ := ![-1, 0, 0]

private theorem angle_right : cylAngle 1 right = 0 := by
  simp only [cylAngle, Matrix.one_mulVec, cartToCyl, arctan2, right]
  have : (⟨1, 0⟩ : ℂ) = 1 := by apply Complex.ext <;> simp
  simp [this]

private theorem angle_left : cylAngle 1 left = Real.pi := by
  simp only [cylAngle, Matrix.one_mulVec, cartToCyl, arctan2, left]
  have : (⟨-1, 0⟩ : ℂ) = -1 := by apply Complex.ext <;> simp
  simp [this]

private theorem ring_distinct : DistinctAngles (2 * Real.pi) [0, Real.pi] := by
  unfold DistinctAngles
  simp only [List.pairwise_cons, List.mem_cons, List.not_mem_nil, or_false, forall_eq]
  refine ⟨?_, by simp⟩
  intro h
  have := sameAngle_eq (by positivity) h (by linarith [Real.pi_pos]) (by linarith [Real.pi_pos])
  exact Real.pi_ne_zero this.symm

/-- A ring with the linear method, `mics` the two microphones. -/
noncomputable def Spec.twoMics : Wanted (List (Fin 3 → ℝ)) (Matrix (Fin 3) (Fin 3) ℝ) :=
  ⟨[![1, 0, 0], ![-1, 0, 0]], none, .ring, .linear, 1, false, 3, 2⟩

private theorem two_row (a b : ℝ) : ringRow (2 * Real.pi) [0, Real.pi] [0] [a, b] 0 = [some a] ∧
    ringRow (2 * Real.pi) [0, Real.pi] [Real.pi] [a, b] 0 = [some b] := by
  have hp : 0 < 2 * Real.pi := by positivity
  constructor
  · have := C99_aligned (2 * Real.pi) hp [0, Real.pi] [0] [a, b] rfl ring_distinct 0 0 0 0 0 a rfl rfl rfl ⟨0, by simp⟩
    simpa [ringRow] using this
  · have := C99_aligned (2 * Real.pi) hp [0, Real.pi] [Real.pi] [a, b] rfl ring_distinct 0 0 1 Real.pi Real.pi b rfl rfl rfl
      ⟨0, by simp⟩
    simpa [ringRow] using this

/-- Another virtual microphone after the first row: the sample of the old place is returned, for all samples. -/
theorem C146_virtual_violated (a b : ℝ) :
    let h : List (InterpOp (List (Fin 3 → ℝ)) (Matrix (Fin 3) (Fin 3) ℝ)) :=
      [.virt [![1, 0, 0]], .sample [a, b] 0, .virt [![-1, 0, 0]]]
    ((twoMics.fresh.run ringLib h).step ringLib (.sample [a, b] 0)).2 = .row (.ok [some a]) ∧
      (h.foldl Wanted.after twoMics).row ringLib [a, b] 0 = .ok [some b] := by
  have hr := angle_right
  have hl := angle_left
  unfold right at hr
  unfold left at hl
  obtain ⟨h1, h2⟩ := two_row a b
  constructor
  · simp [InterpObj.run, InterpObj.step, InterpSet.getVirt, Wanted.fresh, twoMics, interpCore, interpBranch, ringLib, hr, hl, h1,
      Except.bind, fitRow]
  · simp [Wanted.after, Wanted.row, Wanted.targets, twoMics, interpCore, interpBranch, ringLib, hr, hl, h2, Except.bind, fitRow]

/-- Without virtual microphones of their own, objects take those of `mics` at the first reading: the number of channels stays
when the microphones are replaced, whatever is computed from them. -/
theorem C146_default_violated (lib : InterpLib G Q C) (w : Wanted G Q) (hv : w.virt = none) (g : G) :
    let o : InterpObj G Q C := w.fresh.run lib [.numChannels, .mics g]
    (o.step lib .numChannels).2 = .count (lib.size w.mics) ∧
      ([InterpOp.numChannels, .mics g].foldl Wanted.after w).targets = g := by
  simp [InterpObj.run, InterpObj.step, InterpSet.getVirt, Wanted.fresh, Wanted.after, Wanted.targets, hv]

/-- The hypotheses of `C146_settings_partial` are met: new microphones, a row, another method, a row. -/
example := C146_settings_partial ringLib twoMics [.virt [![1, 0, 0]], .dim .d1] [.sample [1, 2] 0, .method .linear, .numChannels]
  (by simp [IsAssignment]) (by simp [IsGeometry])

/-- The hypotheses of `C146_coordinates` are met: -/
example := C146_coordinates ringLib twoMics [.virt [![1, 0, 0]]] [.virt [![-1, 0, 0]]] [1, 2] 0 (by simp [IsAssignment]) [3, 4] 0

/-! ## C147: dimension and method -/

/-- The computations that carry a method out. -/
def Spec.carriesOut : InterpMethod → InterpAlg → Prop
  | .linear, a => a = .interp ∨ a = .linearND
  | .spline, a => a = .cubicSpline ∨ a = .cloughTocher
  | .rbfMultiquadric, a => a = .rbfMultiquadric
  | .rbfCubic, a => a = .rbfCubic
  | .idw, a => a = .inverseDistance
  | .custom, _ => False
  | .sinc, a => a = .rbfSinc

/-- The combinations for which the program has a computation. -/
def Spec.offered (d : ArrayDim) (m : InterpMethod) : Prop :=
  ((d = .d1 ∨ d = .ring) ∧ (m = .linear ∨ m = .spline ∨ m = .sinc ∨ m = .rbfCubic)) ∨
    (d = .d2 ∧ m ≠ .custom) ∨
    (d = .d3 ∧ (m = .linear ∨ m = .sinc ∨ m = .rbfCubic ∨ m = .rbfMultiquadric))

/-- For these combinations every row comes from a computation that carries the method out, with the current parameters, and its
errors are passed on. -/
theorem C147_method_partial (lib : InterpLib G Q C) (d : ArrayDim) (m : InterpMethod) (h : offered d m) :
    ∃ a, carriesOut m a ∧ ∀ zero numIdw p n c row phi, interpCore lib d m zero numIdw p n c row phi =
      match lib.alg a zero numIdw p c row phi with
      | .ok v => if v.length = n then .ok v else if v.length = 1 then .ok (List.replicate n (v.headD none)) else .error .valueError
      | .error e => .error e := by
  have key : ∃ a, carriesOut m a ∧ interpBranch d m = some a ∧ d ≠ .custom := by
    cases d <;> cases m <;> simp [offered, interpBranch, carriesOut] at h ⊢
  obtain ⟨a, ha, hb, hd⟩ := key
  refine ⟨a, ha, ?_⟩
  intro zero numIdw p n c row phi
  unfold interpCore
  rw [if_neg hd, hb]
  cases hx : lib.alg a zero numIdw p c row phi with
  | error e => simp [hx, Except.bind]
  | ok v =>
    simp only [hx, Except.bind, fitRow]
    split
    · rfl
    · match v with
      | [] => rfl
      | [x] => simp
      | x :: y :: r => simp

/-- For all others except the dimension 'custom' the result is zero, without an error, whatever the samples are. -/
theorem C147_zero_violated (lib : InterpLib G Q C) (d : ArrayDim) (m : InterpMethod) (hd : d ≠ .custom) (h : ¬offered d m)
    (zero : Bool) (numIdw : ℤ) (p : ℝ) (n : ℕ) (c : C) (row : List ℝ) (phi : ℝ) :
    interpCore lib d m zero numIdw p n c row phi = .ok (List.replicate n (some 0)) := by
  have hb : interpBranch d m = none := by
    cases d <;> cases m <;> simp [offered, interpBranch] at h hd ⊢
  unfold interpCore
  rw [if_neg hd, hb]

/-- The dimension 'custom' is refused with every method. -/
theorem C147_custom (lib : InterpLib G Q C) (m : InterpMethod) (zero : Bool) (numIdw : ℤ) (p : ℝ) (n : ℕ) (c : C) (row : List ℝ)
    (phi : ℝ) : interpCore lib .custom m zero numIdw p n c row phi = .error .indexError := by
  simp [interpCore]

/-- Both kinds of combinations exist. -/
example : offered .d2 .idw ∧ ¬offered .ring .idw ∧ ¬offered .d3 .spline := by simp [offered]

/-- A ring with inverse distances: silence. -/
example (a b : ℝ) : interpCore ringLib .ring .idw false 3 2 2 ([0, 1], [0, 1]) [a, b] 0 = .ok [some 0, some 0] :=
  C147_zero_violated ringLib .ring .idw (by simp) (by simp [offered]) _ _ _ _ _ _ _

end Acoular
