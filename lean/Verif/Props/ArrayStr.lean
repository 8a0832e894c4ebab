import Verif.Props.Digest
import Verif.Model.ArrayStr

/-!
# C19: digests of objects with array-valued traits
-/

namespace Acoular

theorem edgeItems_long {α : Type*} (pre mid suf : List α) (h1 : pre.length = 3) (h2 : suf.length = 3) (hm : mid ≠ []) :
    edgeItems (pre ++ mid ++ suf) = pre ++ suf := by
  have hl := List.length_pos_iff.2 hm
  unfold edgeItems
  rw [if_pos (by simp only [List.length_append]; omega)]
  congr 1
  · rw [List.append_assoc, List.take_append_of_le_length (by omega), List.take_of_length_le (by omega)]
  · rw [List.drop_append, List.drop_eq_nil_of_le (by simp only [List.length_append]; omega)]
    have : (pre ++ mid ++ suf).length - 3 - (pre ++ mid).length = 0 := by
      simp only [List.length_append]; omega
    rw [this]; simp

/-- **C19, violated.** Two grids with at least 334 points that agree in the first and last three points have the same
digest, whatever the other points are. -/
theorem C19_import_grid_violated {K : Type*} (md5 : List Char → String) (fmt : List (List K) × Bool × Bool → String)
    (x1 y1 z1 x2 y2 z2 : List K) (h1 : x1.length = 3 ∧ y1.length = 3 ∧ z1.length = 3)
    (h2 : x2.length = 3 ∧ y2.length = 3 ∧ z2.length = 3) (x y z x' y' z' : List K) (n : ℕ) (hn : 328 ≤ n)
    (hx : x.length = n ∧ y.length = n ∧ z.length = n) (hx' : x'.length = n ∧ y'.length = n ∧ z'.length = n) :
    ImportGrid.digest md5 fmt [x1 ++ x ++ x2, y1 ++ y ++ y2, z1 ++ z ++ z2] =
      ImportGrid.digest md5 fmt [x1 ++ x' ++ x2, y1 ++ y' ++ y2, z1 ++ z' ++ z2] := by
  have key : ∀ x y z : List K, x.length = n ∧ y.length = n ∧ z.length = n →
      npShown [x1 ++ x ++ x2, y1 ++ y ++ y2, z1 ++ z ++ z2] = ([x1 ++ x2, y1 ++ y2, z1 ++ z2], false, true) := by
    intro x y z h
    have ne : ∀ l : List K, l.length = n → l ≠ [] := by
      intro l hl h0; rw [h0] at hl; simp at hl; omega
    unfold npShown
    rw [if_pos (by
      simp only [List.map_cons, List.map_nil, List.sum_cons, List.sum_nil, List.length_append]; omega)]
    have e : ∀ a b c : List K, edgeItems [a, b, c] = [a, b, c] := by intros; rfl
    rw [e]
    simp only [List.map_cons, List.map_nil, edgeItems_long _ _ _ h1.1 h2.1 (ne x h.1),
      edgeItems_long _ _ _ h1.2.1 h2.2.1 (ne y h.2.1), edgeItems_long _ _ _ h1.2.2 h2.2.2 (ne z h.2.2), List.headD_cons]
    have : 6 < (x1 ++ x ++ x2).length := by simp only [List.length_append]; omega
    simp only [this, decide_true]
    rfl
  unfold ImportGrid.digest npStr
  rw [key x y z hx, key x' y' z' hx']

/-- The same for convolution kernels: single-channel impulse responses of the same length above 1000 that agree in the
first and last three samples (for example because they are zero there). -/
theorem C19_kernel_violated {K : Type*} (md5 : List Char → String) (fmt : List (List K) × Bool × Bool → String)
    (source : String) (pre suf k k' : List K) (h1 : pre.length = 3) (h2 : suf.length = 3) (hn : 1000 ≤ k.length + 5)
    (hk : k.length = k'.length) :
    TimeConvolve.digest md5 fmt source ((pre ++ k ++ suf).map fun v => [v]) =
      TimeConvolve.digest md5 fmt source ((pre ++ k' ++ suf).map fun v => [v]) := by
  have hsum : ∀ l : List K, ((l.map fun v => [v]).map List.length).sum = l.length := by
    intro l; induction l with
    | nil => rfl
    | cons a l ih => simp only [List.map_cons, List.sum_cons, ih, List.length_cons, List.length_nil]; omega
  have key : ∀ k : List K, 1000 ≤ k.length + 5 →
      npShown ((pre ++ k ++ suf).map fun v => [v]) = ((pre ++ suf).map fun v => [v], true, false) := by
    intro k hn
    have hk : k ≠ [] := by intro h0; rw [h0] at hn; simp at hn
    unfold npShown
    rw [hsum, if_pos (by simp only [List.length_append]; omega)]
    have e1 : edgeItems ((pre ++ k ++ suf).map fun v => [v]) = (pre ++ suf).map fun v => [v] := by
      rw [List.map_append, List.map_append, edgeItems_long _ _ _ (by simpa using h1) (by simpa using h2)
        (by simpa using hk), ← List.map_append]
    have e2 : ∀ l : List K, (l.map fun v => [v]).map edgeItems = l.map fun v => [v] := by
      intro l; rw [List.map_map]; rfl
    rw [e1, e2]
    have e3 : 6 < ((pre ++ k ++ suf).map fun v => [v]).length := by
      simp only [List.length_map, List.length_append]; omega
    have e4 : (((pre ++ k ++ suf).map fun v => [v]).headD []).length = 1 := by
      match pre, h1 with
      | a :: _, _ => rfl
    simp only [e3, e4, decide_true]
    rfl
  unfold TimeConvolve.digest npStr
  rw [key k hn, key k' (hk ▸ hn)]

/-- Such kernels exist: an impulse at the fourth sample, and silence. -/
example : (1 : ℤ) :: List.replicate 1000 0 ≠ List.replicate (1000 + 1) 0 ∧
    1000 ≤ ((1 : ℤ) :: List.replicate 1000 0).length + 5 := by
  constructor
  · intro h
    rw [List.replicate_succ] at h
    exact absurd (List.cons.inj h).1 (by decide)
  · rw [List.length_cons, List.length_replicate]; omega

/-- Calibration objects with the same factors and different invalid channels have the same digest although their results
differ: here the factors 1 and 2 are used, or 2 and 3. -/
theorem C19_calib_violated (md5 : List Char → String) (fmt : List (List ℤ) × Bool × Bool → String) (source : String) :
    Calib.digest md5 fmt source [1, 2, 3] [2] = Calib.digest md5 fmt source [1, 2, 3] [0] ∧
      Calib.result [[[(1 : ℤ), 1]]] 2 [1, 2, 3] [2] = ⟨[[[1, 2]]], .returned⟩ ∧
      Calib.result [[[(1 : ℤ), 1]]] 2 [1, 2, 3] [0] = ⟨[[[2, 3]]], .returned⟩ := by
  refine ⟨rfl, ?_, ?_⟩ <;> decide +kernel

/-- For the kernels that are printed in full, the digest of a convolution tells two sources (with digests of the same
length) and two kernels (with different printed forms) apart, if the hash function does. -/
theorem C19_convolve_partial {K : Type*} (md5 : List Char → String) (hmd : Function.Injective md5)
    (fmt : List (List K) × Bool × Bool → String) (src src' : String) (hs : src.length = src'.length) (k k' : List (List K))
    (h : TimeConvolve.digest md5 fmt src k = TimeConvolve.digest md5 fmt src' k') :
    src = src' ∧ fmt (npShown k) = fmt (npShown k') := by
  unfold TimeConvolve.digest digestOf at h
  have h2 : digestPreimage "<class 'acoular.tprocess.TimeConvolve'>" [some src, some (npStr fmt k)] =
      digestPreimage "<class 'acoular.tprocess.TimeConvolve'>" [some src', some (npStr fmt k')] := by
    refine hmd (String.toList_injective ?_)
    have := congrArg String.toList h
    simpa using this
  exact C19_one_parameter_partial _ _ _ _ _ hs h2

/-- The hypotheses of `C19_convolve_partial` are met: -/
example := C19_convolve_partial String.ofList (fun _ _ h => String.ofList_injective h) (fun x => toString x.1) "src1" "src1" rfl
  [[1, 2, 3]] [[1, 2, 3]] rfl

/-- The digest of a calibration tells two sources (with digests of the same length) and two lists of factors (with
different printed forms) apart, if the hash function does. Missing: the invalid channels (`C19_calib_violated`), and
factors that print alike. -/
theorem C19_calib_partial {K : Type*} (md5 : List Char → String) (hmd : Function.Injective md5)
    (fmt : List (List K) × Bool × Bool → String) (src src' : String) (hs : src.length = src'.length) (d d' : List K)
    (inv inv' : List Int) (h : Calib.digest md5 fmt src d inv = Calib.digest md5 fmt src' d' inv') :
    src = src' ∧ fmt (npShown [d]) = fmt (npShown [d']) := by
  unfold Calib.digest digestOf at h
  have h2 : digestPreimage "<class 'acoular.calib.Calib'>" [some src, some (npStr fmt [d])] =
      digestPreimage "<class 'acoular.calib.Calib'>" [some src', some (npStr fmt [d'])] := by
    refine hmd (String.toList_injective ?_)
    have := congrArg String.toList h
    simpa using this
  exact C19_one_parameter_partial _ _ _ _ _ hs h2

/-- The hypotheses of `C19_calib_partial` are met: -/
example := C19_calib_partial String.ofList (fun _ _ h => String.ofList_injective h) (fun x => toString x.1) "src1" "src1" rfl
  [1, 2, 3] [1, 2, 3] [] [0] rfl

/-- The digest of time data without calibration tells apart: the file names, the sampling frequencies, the numbers of channels
and of samples, and first rows whose sums print differently (all but the number of samples printed with the same lengths), if
the hash function does. Missing: everything else of the data (`C19_time_samples_violated`). -/
theorem C19_samples_partial {K : Type*} [AddCommMonoid K] (md5 : List Char → String) (hmd : Function.Injective md5)
    (show_ : K → String) (bn bn' fs fs' : String) (r r' : List K) (d d' : List (List K)) (nch nch' : ℕ)
    (hb : bn.length = bn'.length) (hf : fs.length = fs'.length) (hs : (show_ r.sum).length = (show_ r'.sum).length)
    (hc : (toString nch).length = (toString nch').length)
    (h : TimeSamples.digest md5 show_ bn fs none (r :: d) nch = TimeSamples.digest md5 show_ bn' fs' none (r' :: d') nch') :
    bn = bn' ∧ show_ r.sum = show_ r'.sum ∧ fs = fs' ∧ nch = nch' ∧ d.length = d'.length := by
  unfold TimeSamples.digest digestOf at h
  have h2 : digestPreimage "<class 'acoular.sources.TimeSamples'>"
        ([bn, show_ r.sum, fs, toString nch, toString (r :: d).length].map some) =
      digestPreimage "<class 'acoular.sources.TimeSamples'>"
        ([bn', show_ r'.sum, fs', toString nch', toString (r' :: d').length].map some) := by
    refine hmd (String.toList_injective ?_)
    have := congrArg String.toList h
    simpa [digestPreimage] using this
  have h3 := C19_fixed_width_partial _ [bn, show_ r.sum, fs, toString nch, toString (r :: d).length]
    [bn', show_ r'.sum, fs', toString nch', toString (r' :: d').length] rfl
    (by simp only [List.dropLast_cons_cons, List.dropLast_singleton, List.map_cons, List.map_nil, hb, hf, hs, hc]) h2
  simp only [List.cons.injEq, and_true] at h3
  obtain ⟨a, b, c, e, f⟩ := h3
  have inj : ∀ m n : ℕ, toString m = toString n → m = n := fun m n h => by
    have h1 : m.repr.toList = n.repr.toList := congrArg String.toList h
    rw [Nat.toList_repr, Nat.toList_repr] at h1
    have h2 := congrArg (Nat.ofDigitChars 10 · 0) h1
    simpa using h2
  exact ⟨a, b, c, inj _ _ e, by simpa using inj _ _ f⟩

/-- The hypotheses of `C19_samples_partial` are met: -/
example := C19_samples_partial String.ofList (fun _ _ h => String.ofList_injective h) (fun x : ℤ => toString x) "a" "a" "51200.0" "51200.0"
  [1, 2] [1, 2] [[3, 4]] [[5, 6]] 2 2 rfl rfl rfl rfl rfl

/-- Imported grids of at most 333 points with the same digest print alike, point by point. Missing: larger grids
(`C19_import_grid_violated`), and positions that print alike. -/
theorem C19_import_grid_partial {K : Type*} (md5 : List Char → String) (hmd : Function.Injective md5)
    (fmt : List (List K) × Bool × Bool → String) (x y z x' y' z' : List K) (n n' : ℕ) (hn : n ≤ 333) (hn' : n' ≤ 333)
    (hx : x.length = n ∧ y.length = n ∧ z.length = n) (hx' : x'.length = n' ∧ y'.length = n' ∧ z'.length = n')
    (h : ImportGrid.digest md5 fmt [x, y, z] = ImportGrid.digest md5 fmt [x', y', z']) :
    fmt ([x, y, z], false, false) = fmt ([x', y', z'], false, false) := by
  have key : ∀ (x y z : List K) (n : ℕ), n ≤ 333 → x.length = n ∧ y.length = n ∧ z.length = n →
      npStr fmt [x, y, z] = fmt ([x, y, z], false, false) := by
    intro x y z n hn h
    unfold npStr npShown
    rw [if_neg (by simp only [List.map_cons, List.map_nil, List.sum_cons, List.sum_nil, h]; omega)]
  unfold ImportGrid.digest digestOf at h
  have h2 : digestPreimage "<class 'acoular.grids.ImportGrid'>" [some (npStr fmt [x, y, z])] =
      digestPreimage "<class 'acoular.grids.ImportGrid'>" [some (npStr fmt [x', y', z'])] := by
    refine hmd (String.toList_injective ?_)
    have := congrArg String.toList h
    simpa using this
  have := C19_fixed_width_partial "<class 'acoular.grids.ImportGrid'>" [npStr fmt [x, y, z]] [npStr fmt [x', y', z']] rfl
    (by simp) h2
  rw [key x y z n hn hx, key x' y' z' n' hn' hx'] at this
  simpa using this

/-- The hypotheses of `C19_import_grid_partial` are met: -/
example := C19_import_grid_partial String.ofList (fun _ _ h => String.ofList_injective h) (fun x => toString x.1)
  [1, 2] [3, 4] [5, 6] [1, 2] [3, 4] [5, 6] 2 2 (by decide) (by decide) ⟨rfl, rfl, rfl⟩ ⟨rfl, rfl, rfl⟩ rfl

end Acoular
