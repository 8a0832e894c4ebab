import Verif.Props.Chain
import Verif.Props.NoiseFilter
import Mathlib.Tactic.Module

/-!
# C155: superposition and the order of linear steps
-/

namespace Acoular

open Spec

variable {K : Type} [Field K]

/-- **Specification** `F` puts a network of linear objects behind an object (one of the family `S`); the network makes `x` of the signal `a`
and `y` of the signal `b`. -/
inductive Spec.Steps {n : ℕ} (S : Chain K n → Prop) (a b : List (Fin n → K)) :
    {m : ℕ} → (Chain K n → Chain K m) → List (Fin m → K) → List (Fin m → K) → Prop
  /-- nothing -/
  | here : Steps S a b (fun s => s) a b
  /-- `Calib` -/
  | calib {m : ℕ} {F : Chain K n → Chain K m} {x y : List (Fin m → K)} (h : Steps S a b F x y) (factors : Fin m → K) (hm : 0 < m) :
      Steps S a b (fun s => .calib (List.ofFn factors) (F s)) (x.map fun row i => row i * factors i) (y.map fun row i => row i * factors i)
  /-- `ChannelMixer` with weights -/
  | channels {m : ℕ} {F : Chain K n → Chain K m} {x y : List (Fin m → K)} (h : Steps S a b F x y) (weights : Fin m → K) (hm : 0 < m) :
      Steps S a b (fun s => .channels (List.ofFn weights) (F s)) (x.map fun row _ => ∑ i, weights i * row i) (y.map fun row _ => ∑ i, weights i * row i)
  /-- `ChannelMixer` without weights -/
  | total {m : ℕ} {F : Chain K n → Chain K m} {x y : List (Fin m → K)} (h : Steps S a b F x y) :
      Steps S a b (fun s => .channels [] (F s)) (x.map fun row _ => ∑ i, row i) (y.map fun row _ => ∑ i, row i)
  /-- `MaskedTimeOut` -/
  | mask {m : ℕ} {F : Chain K n → Chain K m} {x y : List (Fin m → K)} (h : Steps S a b F x y) (start : ℤ) (stop : Option ℤ) (invalid : List ℤ)
      (hw : ∀ s, S s → Whole (F s)) (hs : selectIdx (inPySlice start stop x.length) x ≠ []) (hv : keptChannels invalid m ≠ []) :
      Steps S a b (fun s => .mask start stop invalid (F s))
        ((selectIdx (inPySlice start stop x.length) x).map fun row j => row (keptChannels invalid m)[j])
        ((selectIdx (inPySlice start stop y.length) y).map fun row j => row (keptChannels invalid m)[j])
  /-- `Average` -/
  | average {m : ℕ} {F : Chain K n → Chain K m} {x y : List (Fin m → K)} (h : Steps S a b F x y) (nav : ℕ) (hn : 0 < nav) :
      Steps S a b (fun s => .average nav (F s)) (groupAverages K nav x) (groupAverages K nav y)
  /-- `TimeCumAverage` -/
  | cumAverage {m : ℕ} {F : Chain K n → Chain K m} {x y : List (Fin m → K)} (h : Steps S a b F x y) :
      Steps S a b (fun s => .cumAverage (F s)) (cumulativeAverages K x) (cumulativeAverages K y)
  /-- `Filter` -/
  | filter {m : ℕ} {F : Chain K n → Chain K m} {x y : List (Fin m → K)} (h : Steps S a b F x y) (sos : List (Sos K)) {u v : ℕ → Fin m → K}
      (hu : IsSosResponse sos (signal x) u) (hv : IsSosResponse sos (signal y) v) :
      Steps S a b (fun s => .filter sos (F s)) ((List.range x.length).map u) ((List.range y.length).map v)
  /-- `FiltFiltOctave`, scipy's function being linear -/
  | zeroPhase {m : ℕ} {F : Chain K n → Chain K m} {x y : List (Fin m → K)} (h : Steps S a b F x y) (filtfilt : List (Fin m → K) → List (Fin m → K))
      (junk : ℕ → Fin m → K) (hw : ∀ s, S s → Whole (F s)) (hl : ∀ z, (filtfilt z).length = z.length)
      (hlin : ∀ (α β : K) (u v : List (Fin m → K)), v.length = u.length →
        filtfilt (List.zipWith (fun p q => α • p + β • q) u v) = List.zipWith (fun p q => α • p + β • q) (filtfilt u) (filtfilt v)) :
      Steps S a b (fun s => .zeroPhase filtfilt junk (F s)) (filtfilt x) (filtfilt y)
  /-- `TimeReverse` -/
  | reverse {m : ℕ} {F : Chain K n → Chain K m} {x y : List (Fin m → K)} (h : Steps S a b F x y) (junk : ℕ → Fin m → K) (hx : x ≠ []) :
      Steps S a b (fun s => .reverse junk (F s)) x.reverse y.reverse
  /-- `Cache` -/
  | cache {m : ℕ} {F : Chain K n → Chain K m} {x y : List (Fin m → K)} (h : Steps S a b F x y) (mode : CacheMode) (history : List CacheRun) (hx : x ≠ [])
      (hn : ∀ r ∈ history, 0 < r.num) : Steps S a b (fun s => .cache mode history (F s)) x y
  /-- `WriteH5` -/
  | write {m : ℕ} {F : Chain K n → Chain K m} {x y : List (Fin m → K)} (h : Steps S a b F x y) : Steps S a b (fun s => .write (F s)) x y
  /-- `Mixer` of two such networks behind the same object -/
  | mixer {m : ℕ} {F G : Chain K n → Chain K m} {x y x' y' : List (Fin m → K)} (h : Steps S a b F x y) (h' : Steps S a b G x' y')
      (hl : x'.length = x.length) :
      Steps S a b (fun s => .mixer (F s) (G s)) (List.zipWith (· + ·) x x') (List.zipWith (· + ·) y y')

/-- The combination of two signals. -/
private def comb {n : ℕ} (α β : K) (x y : List (Fin n → K)) : List (Fin n → K) := List.zipWith (fun p q => α • p + β • q) x y

private theorem comb_length {n : ℕ} (α β : K) {x y : List (Fin n → K)} (h : y.length = x.length) : (comb α β x y).length = x.length := by
  simp [comb, h]

private theorem comb_signal {n : ℕ} (α β : K) {x y : List (Fin n → K)} (h : y.length = x.length) (k : ℕ) :
    signal (comb α β x y) k = α • signal x k + β • signal y k := by
  by_cases hk : k < x.length
  · have hk' : k < y.length := by omega
    simp [signal, comb, hk, hk']
  · have hk' : ¬ k < y.length := by omega
    simp [signal, comb, hk, hk']

private theorem comb_eq {n : ℕ} (α β : K) {x y z : List (Fin n → K)} (h : y.length = x.length) (hz : z.length = x.length)
    (hk : ∀ k, k < x.length → signal z k = α • signal x k + β • signal y k) : z = comb α β x y := by
  refine List.ext_getElem (by rw [hz, comb_length _ _ h]) fun k h1 h2 => ?_
  have e := hk k (by omega)
  rw [← comb_signal α β h] at e
  simpa [signal, List.getD_eq_getElem?_getD, h1, h2] using e

private theorem comb_map {n m : ℕ} (α β : K) (x y : List (Fin n → K)) (g : (Fin n → K) → (Fin m → K)) (hg : ∀ p q, g (α • p + β • q) = α • g p + β • g q) :
    (comb α β x y).map g = comb α β (x.map g) (y.map g) := by
  simp [comb, List.map_zipWith, List.zipWith_map, hg]

private theorem comb_sum {n : ℕ} (α β : K) : ∀ (x y : List (Fin n → K)), y.length = x.length → (comb α β x y).sum = α • x.sum + β • y.sum
  | [], [], _ => by simp [comb]
  | p :: x, q :: y, h => by
    have ih := comb_sum α β x y (by simpa using h)
    simp only [comb] at ih
    simp only [comb, List.zipWith_cons_cons, List.sum_cons, ih]
    module

private theorem comb_take {n : ℕ} (α β : K) (k : ℕ) (x y : List (Fin n → K)) : (comb α β x y).take k = comb α β (x.take k) (y.take k) := by
  simp [comb, List.take_zipWith]

private theorem comb_drop {n : ℕ} (α β : K) (k : ℕ) (x y : List (Fin n → K)) : (comb α β x y).drop k = comb α β (x.drop k) (y.drop k) := by
  simp [comb, List.drop_zipWith]

private theorem comb_groups {n : ℕ} (α β : K) (nav : ℕ) {x y : List (Fin n → K)} (h : y.length = x.length) :
    groupAverages K nav (comb α β x y) = comb α β (groupAverages K nav x) (groupAverages K nav y) := by
  unfold groupAverages
  rw [comb_length _ _ h, h]
  conv_rhs => rw [comb, List.zipWith_map, List.zipWith_self]
  refine List.map_congr_left fun j _ => ?_
  rw [comb_drop, comb_take, comb_sum _ _ _ _ (by simp [h])]
  module

private theorem comb_cumulative {n : ℕ} (α β : K) {x y : List (Fin n → K)} (h : y.length = x.length) :
    cumulativeAverages K (comb α β x y) = comb α β (cumulativeAverages K x) (cumulativeAverages K y) := by
  unfold cumulativeAverages
  rw [comb_length _ _ h, h]
  conv_rhs => rw [comb, List.zipWith_map, List.zipWith_self]
  refine List.map_congr_left fun j _ => ?_
  rw [comb_take, comb_sum _ _ _ _ (by simp [h])]
  module

private theorem section_comb {n : ℕ} (α β : K) {s : Sos K} {x y u v : ℕ → Fin n → K} (hu : IsSectionResponse s x u) (hv : IsSectionResponse s y v) :
    IsSectionResponse s (fun k => α • x k + β • y k) fun k => α • u k + β • v k := by
  intro k
  have e : ∀ (x y : ℕ → Fin n → K) (j : ℕ), past (fun k => α • x k + β • y k) k j = α • past x k j + β • past y k j := by
    intro x y j
    unfold past
    split <;> simp
  rw [e, e, e, e]
  simp only
  rw [hu k, hv k]
  module

private theorem response_comb {n : ℕ} (α β : K) : ∀ (sos : List (Sos K)) {x y u v : ℕ → Fin n → K}, IsSosResponse sos x u → IsSosResponse sos y v →
    IsSosResponse sos (fun k => α • x k + β • y k) fun k => α • u k + β • v k
  | [], _, _, _, _, hu, hv => by
    cases (show _ = _ from hu); cases (show _ = _ from hv); rfl
  | _ :: ss, _, _, _, _, ⟨w, h1, h2⟩, ⟨w', h1', h2'⟩ => ⟨_, section_comb α β h1 h1', response_comb α β ss h2 h2'⟩

private theorem comb_mask {n : ℕ} (α β : K) (start : ℤ) (stop : Option ℤ) {x y : List (Fin n → K)} (h : y.length = x.length) :
    selectIdx (inPySlice start stop (comb α β x y).length) (comb α β x y) =
      comb α β (selectIdx (inPySlice start stop x.length) x) (selectIdx (inPySlice start stop y.length) y) := by
  rw [selectIdx_inPySlice, selectIdx_inPySlice, selectIdx_inPySlice, comb_length _ _ h, h, comb_take, comb_drop]

private theorem mask_length {α : Type} (start : ℤ) (stop : Option ℤ) {x y : List α} (h : y.length = x.length) :
    (selectIdx (inPySlice start stop y.length) y).length = (selectIdx (inPySlice start stop x.length) x).length := by
  rw [selectIdx_inPySlice, selectIdx_inPySlice, h]
  simp [h]

private theorem ne_of_length {α β : Type} {x : List α} {y : List β} (h : y.length = x.length) (hx : x ≠ []) : y ≠ [] := by
  rintro rfl
  exact hx (List.length_eq_zero_iff.1 h.symm)

/-- A network of linear objects makes the combination of the signals of the combination of the sources. -/
theorem steps_mean {n : ℕ} {S : Chain K n → Prop} {a b : List (Fin n → K)} (hl : b.length = a.length) {c d e : Chain K n} (α β : K) (hc : Means c a)
    (hd : Means d b) (he : Means e (List.zipWith (fun p q => α • p + β • q) a b)) (sc : S c) (sd : S d) (se : S e) {m : ℕ} {F : Chain K n → Chain K m}
    {x y : List (Fin m → K)} (h : Steps S a b F x y) :
    y.length = x.length ∧ Means (F c) x ∧ Means (F d) y ∧ Means (F e) (List.zipWith (fun p q => α • p + β • q) x y) := by
  change _ ∧ _ ∧ _ ∧ Means (F e) (comb α β x y)
  induction h with
  | here => exact ⟨hl, hc, hd, he⟩
  | calib h f hm ih =>
    obtain ⟨l, i1, i2, i3⟩ := ih
    refine ⟨by simpa using l, .calib i1 hm, .calib i2 hm, ?_⟩
    rw [← comb_map _ _ _ _ (fun row i => row i * f i)]
    · exact .calib i3 hm
    · intro p q; funext i; simp; ring
  | channels h w hm ih =>
    obtain ⟨l, i1, i2, i3⟩ := ih
    refine ⟨by simpa using l, .channels i1 hm, .channels i2 hm, ?_⟩
    rw [← comb_map _ _ _ _ (fun row _ => ∑ i, w i * row i)]
    · exact .channels i3 hm
    · intro p q; funext i; simp only [Pi.add_apply, Pi.smul_apply, smul_eq_mul, Finset.mul_sum, ← Finset.sum_add_distrib]
      exact Finset.sum_congr rfl fun _ _ => by ring
  | total h ih =>
    obtain ⟨l, i1, i2, i3⟩ := ih
    refine ⟨by simpa using l, .total i1, .total i2, ?_⟩
    rw [← comb_map _ _ _ _ (fun row _ => ∑ i, row i)]
    · exact .total i3
    · intro p q; funext i; simp only [Pi.add_apply, Pi.smul_apply, smul_eq_mul, Finset.mul_sum, ← Finset.sum_add_distrib]
  | mask h start stop invalid hw hs hv ih =>
    obtain ⟨l, i1, i2, i3⟩ := ih
    have hl' := mask_length start stop l
    refine ⟨by simpa using hl', .mask i1 (hw _ sc) hs hv, .mask i2 (hw _ sd) (ne_of_length hl' hs) hv, ?_⟩
    have := Means.mask (start := start) (stop := stop) i3 (hw _ se) (by
      rw [comb_mask _ _ _ _ l]; exact ne_of_length (comb_length _ _ hl') hs) hv
    rw [comb_mask _ _ _ _ l] at this
    rw [← comb_map]
    · exact this
    · intro p q; rfl
  | average h nav hn ih =>
    obtain ⟨l, i1, i2, i3⟩ := ih
    refine ⟨by simp [groupAverages, l], .average i1 hn, .average i2 hn, ?_⟩
    rw [← comb_groups _ _ _ l]
    exact .average i3 hn
  | cumAverage h ih =>
    obtain ⟨l, i1, i2, i3⟩ := ih
    refine ⟨by simp [cumulativeAverages, l], .cumAverage i1, .cumAverage i2, ?_⟩
    rw [← comb_cumulative _ _ l]
    exact .cumAverage i3
  | @filter m F x y h sos u v hu hv ih =>
    obtain ⟨l, i1, i2, i3⟩ := ih
    refine ⟨by simp [l], .filter i1 hu, .filter i2 hv, ?_⟩
    have := Means.filter (y := fun k => α • u k + β • v k) i3 (by
      have := response_comb α β sos hu hv
      rwa [show signal (comb α β x y) = fun k => α • signal x k + β • signal y k from funext (comb_signal α β l)])
    rw [comb_length _ _ l] at this
    rw [l]
    conv => enter [2]; rw [comb, List.zipWith_map, List.zipWith_self]
    exact this
  | @zeroPhase m F x y h ff junk hw hlen hlin ih =>
    obtain ⟨l, i1, i2, i3⟩ := ih
    refine ⟨by rw [hlen, hlen, l], .zeroPhase i1 (hw _ sc) (hlen _), .zeroPhase i2 (hw _ sd) (hlen _), ?_⟩
    have := Means.zeroPhase (filtfilt := ff) (junk := junk) i3 (hw _ se) (hlen _)
    rw [comb, hlin _ _ _ _ l] at this
    exact this
  | @reverse m F x y h junk hx ih =>
    obtain ⟨l, i1, i2, i3⟩ := ih
    refine ⟨by simpa using l, .reverse i1 hx, .reverse i2 (ne_of_length l hx), ?_⟩
    have := Means.reverse (junk := junk) i3 (ne_of_length (comb_length _ _ l) hx)
    rwa [comb, List.reverse_zipWith l.symm] at this
  | @cache m F x y h mode history hx hn ih =>
    obtain ⟨l, i1, i2, i3⟩ := ih
    exact ⟨l, .cache i1 hx hn, .cache i2 (ne_of_length l hx) hn, .cache i3 (ne_of_length (comb_length _ _ l) hx) hn⟩
  | write h ih => exact ⟨ih.1, .write ih.2.1, .write ih.2.2.1, .write ih.2.2.2⟩
  | @mixer m F G x y x' y' h h' hl' ih ih' =>
    obtain ⟨l, i1, i2, i3⟩ := ih
    obtain ⟨l', j1, j2, j3⟩ := ih'
    refine ⟨by simp [l, l', hl'], .mixer i1 j1 hl', .mixer i2 j2 (by omega), ?_⟩
    have := Means.mixer i3 j3 (by rw [comb_length _ _ l, comb_length _ _ l', hl'])
    convert this using 1
    refine List.ext_getElem (by simp [comb, l, l', hl']) fun k h1 h2 => ?_
    simp only [comb, List.getElem_zipWith]
    module

private theorem same_result [CharZero K] {n : ℕ} {c d : Chain K n} {data : List (Fin n → K)} (hc : Means c data) (hd : Means d data) (num : ℕ) (hn : 0 < num) :
    c.result num = d.result num ∧ (c.result num).exit = .returned ∧ IsBlocking num data (c.result num).blocks := by
  obtain ⟨c1, c2⟩ := C125_chain_partial hc num hn
  obtain ⟨d1, d2⟩ := C125_chain_partial hd num hn
  refine ⟨?_, c1, c2⟩
  have e := ((isBlocking_iff hn).1 c2).trans ((isBlocking_iff hn).1 d2).symm
  cases hr : c.result num
  cases hr' : d.result num
  simp_all

/-- **C155** (mixtures) A network of linear objects behind a `Mixer` of two sources delivers exactly the blocks that a `Mixer` delivers behind two copies of
the network, one for each source: every block, for every block size. -/
theorem C155_mixture [CharZero K] {n : ℕ} {c d : Chain K n} {a b : List (Fin n → K)} (hc : Means c a) (hd : Means d b) (hl : b.length = a.length)
    {S : Chain K n → Prop} (sc : S c) (sd : S d) (se : S (.mixer c d)) {m : ℕ} {F : Chain K n → Chain K m} {x y : List (Fin m → K)}
    (h : Steps S a b F x y) (num : ℕ) (hn : 0 < num) :
    (F (.mixer c d)).result num = (Chain.mixer (F c) (F d)).result num ∧ ((F (.mixer c d)).result num).exit = .returned ∧
      ((F (.mixer c d)).result num).blocks.flatten =
        List.zipWith (· + ·) ((F c).result num).blocks.flatten ((F d).result num).blocks.flatten := by
  have e : ∀ {k : ℕ} (x y : List (Fin k → K)), List.zipWith (fun p q => (1 : K) • p + (1 : K) • q) x y = List.zipWith (· + ·) x y := by
    intro k x y; simp
  obtain ⟨l, i1, i2, i3⟩ := steps_mean hl 1 1 hc hd (e := .mixer c d) (by rw [e]; exact .mixer hc hd hl) sc sd se h
  rw [e] at i3
  obtain ⟨r1, r2, r3⟩ := same_result i3 (.mixer i1 i2 l) num hn
  refine ⟨r1, r2, ?_⟩
  rw [r3.cover, (C125_chain_partial i1 num hn).2.cover, (C125_chain_partial i2 num hn).2.cover]

/-- **C155** (calibration) A common factor for all channels may be applied before or behind a network of linear objects. -/
theorem C155_scale [CharZero K] {n : ℕ} (h0 : 0 < n) {c : Chain K n} {a : List (Fin n → K)} (hc : Means c a) (α : K) {S : Chain K n → Prop} (sc : S c)
    (se : S (.calib (List.ofFn fun _ : Fin n => α) c)) {m : ℕ} (hm : 0 < m) {F : Chain K n → Chain K m} {x y : List (Fin m → K)} (h : Steps S a a F x y) (num : ℕ)
    (hn : 0 < num) :
    (F (.calib (List.ofFn fun _ : Fin n => α) c)).result num = (Chain.calib (List.ofFn fun _ : Fin m => α) (F c)).result num ∧
      ((F (.calib (List.ofFn fun _ : Fin n => α) c)).result num).exit = .returned := by
  have e : ∀ {k : ℕ} (x y : List (Fin k → K)), y.length = x.length →
      List.zipWith (fun p q => α • p + (0 : K) • q) x y = x.map fun row i => row i * (fun _ => α) i := by
    intro k x y h
    refine List.ext_getElem (by simp [h]) fun k h1 h2 => ?_
    funext i
    simp [mul_comm]
  obtain ⟨l, i1, i2, i3⟩ := steps_mean rfl α 0 hc hc (e := .calib (List.ofFn fun _ : Fin n => α) c) (by rw [e _ _ rfl]; exact .calib hc h0) sc sc se h
  rw [e _ _ l] at i3
  obtain ⟨r1, r2, -⟩ := same_result i3 (.calib i1 hm) num hn
  exact ⟨r1, r2⟩

/-! ### Steps along time and steps across channels -/

/-- **Specification** `F` puts a network of objects that act on every channel alike behind an object of `n` channels, `G` the same network behind an object
of `m` channels; `x` is what becomes of the signal `a`. -/
inductive Spec.TimeSteps {n m : ℕ} (a : List (Fin n → K)) : (Chain K n → Chain K n) → (Chain K m → Chain K m) → List (Fin n → K) → Prop
  /-- nothing -/
  | here : TimeSteps a (fun s => s) (fun s => s) a
  /-- `Average` -/
  | average {F : Chain K n → Chain K n} {G : Chain K m → Chain K m} {x : List (Fin n → K)} (h : TimeSteps a F G x) (nav : ℕ) (hn : 0 < nav) :
      TimeSteps a (fun s => .average nav (F s)) (fun s => .average nav (G s)) (groupAverages K nav x)
  /-- `TimeCumAverage` -/
  | cumAverage {F : Chain K n → Chain K n} {G : Chain K m → Chain K m} {x : List (Fin n → K)} (h : TimeSteps a F G x) :
      TimeSteps a (fun s => .cumAverage (F s)) (fun s => .cumAverage (G s)) (cumulativeAverages K x)
  /-- `Filter` -/
  | filter {F : Chain K n → Chain K n} {G : Chain K m → Chain K m} {x : List (Fin n → K)} (h : TimeSteps a F G x) (sos : List (Sos K))
      {u : ℕ → Fin n → K} (hu : IsSosResponse sos (signal x) u) :
      TimeSteps a (fun s => .filter sos (F s)) (fun s => .filter sos (G s)) ((List.range x.length).map u)
  /-- `TimeReverse` -/
  | reverse {F : Chain K n → Chain K n} {G : Chain K m → Chain K m} {x : List (Fin n → K)} (h : TimeSteps a F G x) (junk : ℕ → Fin n → K)
      (junk' : ℕ → Fin m → K) (hx : x ≠ []) : TimeSteps a (fun s => .reverse junk (F s)) (fun s => .reverse junk' (G s)) x.reverse
  /-- `Cache`, the histories may differ -/
  | cache {F : Chain K n → Chain K n} {G : Chain K m → Chain K m} {x : List (Fin n → K)} (h : TimeSteps a F G x) (mode mode' : CacheMode)
      (history history' : List CacheRun) (hx : x ≠ []) (hn : ∀ r ∈ history ++ history', 0 < r.num) :
      TimeSteps a (fun s => .cache mode history (F s)) (fun s => .cache mode' history' (G s)) x
  /-- `WriteH5` -/
  | write {F : Chain K n → Chain K n} {G : Chain K m → Chain K m} {x : List (Fin n → K)} (h : TimeSteps a F G x) :
      TimeSteps a (fun s => .write (F s)) (fun s => .write (G s)) x
  /-- `Mixer` of two such networks behind the same object -/
  | mixer {F F' : Chain K n → Chain K n} {G G' : Chain K m → Chain K m} {x x' : List (Fin n → K)} (h : TimeSteps a F G x) (h' : TimeSteps a F' G' x')
      (hl : x'.length = x.length) :
      TimeSteps a (fun s => .mixer (F s) (F' s)) (fun s => .mixer (G s) (G' s)) (List.zipWith (· + ·) x x')

private theorem section_rows {n m : ℕ} (g : (Fin n → K) →ₗ[K] (Fin m → K)) {s : Sos K} {x u : ℕ → Fin n → K} (hu : IsSectionResponse s x u) :
    IsSectionResponse s (fun k => g (x k)) fun k => g (u k) := by
  intro k
  have e : ∀ (x : ℕ → Fin n → K) (j : ℕ), past (fun k => g (x k)) k j = g (past x k j) := by
    intro x j
    unfold past
    split <;> simp
  rw [e, e, e, e]
  simp only
  rw [hu k]
  simp

private theorem response_rows {n m : ℕ} (g : (Fin n → K) →ₗ[K] (Fin m → K)) : ∀ (sos : List (Sos K)) {x u : ℕ → Fin n → K}, IsSosResponse sos x u →
    IsSosResponse sos (fun k => g (x k)) fun k => g (u k)
  | [], _, _, hu => by cases (show _ = _ from hu); rfl
  | _ :: ss, _, _, ⟨_, h1, h2⟩ => ⟨_, section_rows g h1, response_rows g ss h2⟩

private theorem signal_map {n m : ℕ} (g : (Fin n → K) →ₗ[K] (Fin m → K)) (x : List (Fin n → K)) : signal (x.map g) = fun k => g (signal x k) := by
  funext k
  by_cases hk : k < x.length <;> simp [signal, hk]

private theorem time_mean {n m : ℕ} {a : List (Fin n → K)} (g : (Fin n → K) →ₗ[K] (Fin m → K)) {c : Chain K n} {e : Chain K m} (hc : Means c a)
    (he : Means e (a.map g)) {F : Chain K n → Chain K n} {G : Chain K m → Chain K m} {x : List (Fin n → K)} (h : TimeSteps a F G x) :
    Means (F c) x ∧ Means (G e) (x.map g) := by
  induction h with
  | here => exact ⟨hc, he⟩
  | @average F G x h nav hn ih =>
    refine ⟨.average ih.1 hn, ?_⟩
    have := Means.average ih.2 hn
    convert this using 1
    simp only [groupAverages, List.map_map, List.length_map]
    refine List.map_congr_left fun j _ => ?_
    simp only [Function.comp, map_smul, map_list_sum, ← List.map_drop, ← List.map_take]
  | @cumAverage F G x h ih =>
    refine ⟨.cumAverage ih.1, ?_⟩
    have := Means.cumAverage ih.2
    convert this using 1
    simp only [cumulativeAverages, List.map_map, List.length_map]
    refine List.map_congr_left fun j _ => ?_
    simp only [Function.comp, map_smul, map_list_sum, ← List.map_take]
  | @filter F G x h sos u hu ih =>
    refine ⟨.filter ih.1 hu, ?_⟩
    have := Means.filter ih.2 (y := fun k => g (u k)) (by rw [signal_map]; exact response_rows g sos hu)
    convert this using 1
    simp
  | @reverse F G x h junk junk' hx ih =>
    refine ⟨.reverse ih.1 hx, ?_⟩
    have := Means.reverse (junk := junk') ih.2 (by simpa using hx)
    rwa [← List.map_reverse] at this
  | @cache F G x h mode mode' history history' hx hn ih =>
    exact ⟨.cache ih.1 hx fun r hr => hn r (by simp [hr]), .cache ih.2 (by simpa using hx) fun r hr => hn r (by simp [hr])⟩
  | write h ih => exact ⟨.write ih.1, .write ih.2⟩
  | @mixer F F' G G' x x' h h' hl ih ih' =>
    refine ⟨.mixer ih.1 ih'.1 hl, ?_⟩
    have := Means.mixer ih.2 ih'.2 (by simpa using hl)
    convert this using 1
    simp [List.map_zipWith, List.zipWith_map]

private def mulRow {n : ℕ} (f : Fin n → K) : (Fin n → K) →ₗ[K] (Fin n → K) where
  toFun row := fun i => row i * f i
  map_add' p q := by funext i; simp [add_mul]
  map_smul' r p := by funext i; simp [mul_assoc]

private def sumRow {n : ℕ} (w : Fin n → K) : (Fin n → K) →ₗ[K] (Fin 1 → K) where
  toFun row := fun _ => ∑ i, w i * row i
  map_add' p q := by funext i; simp [mul_add, Finset.sum_add_distrib]
  map_smul' r p := by funext i; simp only [Pi.smul_apply, smul_eq_mul, Finset.mul_sum, RingHom.id_apply]; exact Finset.sum_congr rfl fun _ _ => by ring

/-- **C155** (calibration, channel by channel) Factors of the channels may be applied before or behind averages, filters, reversal, files and caches: the
blocks are the same. -/
theorem C155_calib [CharZero K] {n : ℕ} (h0 : 0 < n) {c : Chain K n} {a : List (Fin n → K)} (hc : Means c a) (factors : Fin n → K)
    {F G : Chain K n → Chain K n} {x : List (Fin n → K)} (h : TimeSteps a F G x) (num : ℕ) (hn : 0 < num) :
    (Chain.calib (List.ofFn factors) (F c)).result num = (G (.calib (List.ofFn factors) c)).result num ∧
      ((G (.calib (List.ofFn factors) c)).result num).exit = .returned := by
  obtain ⟨i1, i2⟩ := time_mean (mulRow factors) hc (e := .calib (List.ofFn factors) c) (.calib hc h0) h
  obtain ⟨r1, r2, -⟩ := same_result i2 (.calib i1 h0) num hn
  exact ⟨r1.symm, r2⟩

/-- **C155** (weighted sum of channels) The channels may be mixed before or behind averages, filters, reversal, files and caches: the blocks are the
same. -/
theorem C155_channels [CharZero K] {n : ℕ} (h0 : 0 < n) {c : Chain K n} {a : List (Fin n → K)} (hc : Means c a) (weights : Fin n → K)
    {F : Chain K n → Chain K n} {G : Chain K 1 → Chain K 1} {x : List (Fin n → K)} (h : TimeSteps a F G x) (num : ℕ) (hn : 0 < num) :
    (Chain.channels (List.ofFn weights) (F c)).result num = (G (.channels (List.ofFn weights) c)).result num ∧
      ((G (.channels (List.ofFn weights) c)).result num).exit = .returned := by
  obtain ⟨i1, i2⟩ := time_mean (sumRow weights) hc (e := .channels (List.ofFn weights) c) (.channels hc h0) h
  obtain ⟨r1, r2, -⟩ := same_result i2 (.channels i1 h0) num hn
  exact ⟨r1.symm, r2⟩

/-! ### Filters with the same transfer function -/

/-- **Specification** The sections of both filters, multiplied, are the same rational function in the delay by one sample:
`∏ num * ∏ den' = ∏ num' * ∏ den` as power series. -/
def Spec.SameTransfer (sos sos' : List (Sos K)) : Prop :=
  (sos.map fun s => (PowerSeries.mk fun j => (numOf s).getD j 0 : PowerSeries K)).prod *
      (sos'.map fun s => (PowerSeries.mk fun j => (denOf s).getD j 0 : PowerSeries K)).prod =
    (sos'.map fun s => (PowerSeries.mk fun j => (numOf s).getD j 0 : PowerSeries K)).prod *
      (sos.map fun s => (PowerSeries.mk fun j => (denOf s).getD j 0 : PowerSeries K)).prod

private theorem response_proj {n : ℕ} {sos : List (Sos K)} {x u : ℕ → Fin n → K} (hu : IsSosResponse sos x u) (i : Fin n) :
    IsSosResponse sos (fun k => x k i) fun k => u k i := by
  induction sos generalizing x with
  | nil => cases (show u = x from hu); rfl
  | cons s ss ih =>
    obtain ⟨w, h1, h2⟩ := hu
    refine ⟨fun k => w k i, fun k => ?_, ih h2⟩
    have e : ∀ (x : ℕ → Fin n → K) (j : ℕ), past (fun k => x k i) k j = past x k j i := by
      intro x j
      unfold past
      split <;> simp
    rw [e, e, e, e]
    simpa using congrFun (h1 k) i

private theorem response_same {n : ℕ} {sos sos' : List (Sos K)} (h : SameTransfer sos sos') {x u v : ℕ → Fin n → K} (hu : IsSosResponse sos x u)
    (hv : IsSosResponse sos' x v) : u = v := by
  funext k i
  have e1 := sos_series sos _ _ (response_proj hu i)
  have e2 := sos_series sos' _ _ (response_proj hv i)
  have h' : (sos.map fun s => ser fun j => (numOf s).getD j 0).prod * (sos'.map fun s => ser fun j => (denOf s).getD j 0).prod =
      (sos'.map fun s => ser fun j => (numOf s).getD j 0).prod * (sos.map fun s => ser fun j => (denOf s).getD j 0).prod := h
  have : ser (fun k => u k i) = ser fun k => v k i := by
    refine mul_left_cancel₀ (mul_ne_zero (den_ne sos) (den_ne sos')) ?_
    linear_combination (sos'.map fun s => ser fun j => (denOf s).getD j 0).prod * e1 - (sos.map fun s => ser fun j => (denOf s).getD j 0).prod * e2 +
      ser (fun k => x k i) * h'
  simpa [ser] using congrArg (PowerSeries.coeff k) this

/-- **C155** (transfer function) What a filter delivers depends on its transfer function only, not on the sections it is realised with. -/
theorem C155_transfer [CharZero K] {n : ℕ} {c : Chain K n} {a : List (Fin n → K)} (hc : Means c a) {sos sos' : List (Sos K)} (h : SameTransfer sos sos')
    (num : ℕ) (hn : 0 < num) :
    (Chain.filter sos c).result num = (Chain.filter sos' c).result num ∧ ((Chain.filter sos c).result num).exit = .returned := by
  obtain ⟨u, hu⟩ := exists_sos_response sos (signal a)
  obtain ⟨v, hv⟩ := exists_sos_response sos' (signal a)
  have := response_same h hu hv
  subst this
  obtain ⟨r1, r2, -⟩ := same_result (.filter hc hu) (.filter hc hv) num hn
  exact ⟨r1, r2⟩

private theorem response_append {V : Type} [AddCommGroup V] [Module K V] {t : List (Sos K)} : ∀ {s : List (Sos K)} {x u v : ℕ → V}, IsSosResponse s x u →
    IsSosResponse t u v → IsSosResponse (s ++ t) x v
  | [], _, _, _, h, h' => by cases (show _ = _ from h); exact h'
  | _ :: _, _, _, _, ⟨w, h1, h2⟩, h' => ⟨w, h1, response_append h2 h'⟩

private theorem past_local {V : Type} [AddCommGroup V] {x x' : ℕ → V} {N : ℕ} (h : ∀ k < N, x k = x' k) {k : ℕ} (hk : k < N) (j : ℕ) :
    past x k j = past x' k j := by
  unfold past
  split
  · exact h _ (by omega)
  · rfl

private theorem response_local {V : Type} [AddCommGroup V] [Module K V] (N : ℕ) : ∀ {s : List (Sos K)} {x x' u v : ℕ → V}, IsSosResponse s x u →
    IsSosResponse s x' v → (∀ k < N, x k = x' k) → ∀ k < N, u k = v k
  | [], _, _, _, _, h, h', e => by cases (show _ = _ from h); cases (show _ = _ from h'); exact e
  | s :: ss, x, x', u, v, ⟨w, h1, h2⟩, ⟨w', h1', h2'⟩, e => by
    refine response_local N h2 h2' ?_
    intro k
    induction k using Nat.strong_induction_on with
    | _ k ih =>
      intro hk
      rw [h1 k, h1' k, e k hk, past_local e hk, past_local e hk]
      have : ∀ j, 0 < j → past w k j = past w' k j := by
        intro j hj
        unfold past
        split
        · exact ih _ (by omega) (by omega)
        · rfl
      rw [this 1 one_pos, this 2 two_pos]

private theorem filter_twice {n : ℕ} {c : Chain K n} {a : List (Fin n → K)} (hc : Means c a) (s t : List (Sos K)) {v : ℕ → Fin n → K}
    (hv : IsSosResponse (s ++ t) (signal a) v) : Means (.filter t (.filter s c)) ((List.range a.length).map v) := by
  obtain ⟨u, hu⟩ := exists_sos_response s (signal a)
  obtain ⟨w, hw⟩ := exists_sos_response t u
  obtain ⟨z, hz⟩ := exists_sos_response t (signal ((List.range a.length).map u))
  have e : ∀ k < a.length, z k = w k := response_local a.length hz hw fun k hk => by simp [signal, hk]
  have e' : ∀ k < a.length, w k = v k := response_local a.length (response_append hu hw) hv fun _ _ => rfl
  have := Means.filter (Means.filter hc hu) hz
  convert this using 1
  simp only [List.length_map, List.length_range]
  exact List.map_congr_left fun k hk => ((e k (List.mem_range.1 hk)).trans (e' k (List.mem_range.1 hk))).symm

/-- **C155** (filters in a row) Two filters in a row deliver the blocks of one filter with the sections of both, and so in any order. -/
theorem C155_filters [CharZero K] {n : ℕ} {c : Chain K n} {a : List (Fin n → K)} (hc : Means c a) (s t : List (Sos K)) (num : ℕ) (hn : 0 < num) :
    (Chain.filter t (.filter s c)).result num = (Chain.filter (s ++ t) c).result num ∧
    (Chain.filter t (.filter s c)).result num = (Chain.filter s (.filter t c)).result num ∧
    ((Chain.filter t (.filter s c)).result num).exit = .returned := by
  have key : ∀ s t : List (Sos K), (Chain.filter t (.filter s c)).result num = (Chain.filter (s ++ t) c).result num ∧
      ((Chain.filter t (.filter s c)).result num).exit = .returned := by
    intro s t
    obtain ⟨v, hv⟩ := exists_sos_response (s ++ t) (signal a)
    obtain ⟨r1, r2, -⟩ := same_result (filter_twice hc s t hv) (.filter hc hv) num hn
    exact ⟨r1, r2⟩
  refine ⟨(key s t).1, ?_, (key s t).2⟩
  rw [(key s t).1, (key t s).1]
  refine (C155_transfer hc ?_ num hn).1
  simp only [SameTransfer, List.map_append, List.prod_append]
  ring

/-! ### The hypotheses are met -/

private def threeRows : List (Fin 2 → ℚ) := [![1, 2], ![3, 4], ![5, 6]]

private def otherRows : List (Fin 2 → ℚ) := [![0, 2], ![7, 4], ![1, -6]]

/-- Hypotheses of `C155_mixture` and `C155_scale`: a signal mixed with its filtered self, reversed. -/
example (sos : List (Sos ℚ)) : ∃ x y, Steps (fun _ : Chain ℚ 2 => True) threeRows otherRows
    (fun s => .reverse (fun _ _ => 9) (.mixer (.calib (List.ofFn fun _ : Fin 2 => 2) s) (.filter sos s))) x y := by
  obtain ⟨u, hu⟩ := exists_sos_response sos (signal threeRows)
  obtain ⟨v, hv⟩ := exists_sos_response sos (signal otherRows)
  exact ⟨_, _, .reverse (.mixer (.calib .here _ two_pos) (.filter .here sos hu hv) (by simp)) _ (by simp [threeRows])⟩

example (sos : List (Sos ℚ)) : ((Chain.filter sos (.mask 1 none [1] (.mixer (.samples threeRows) (.samples otherRows)))).result 2) =
    (Chain.mixer (.filter sos (.mask 1 none [1] (.samples threeRows))) (.filter sos (.mask 1 none [1] (.samples otherRows)))).result 2 := by
  obtain ⟨u, hu⟩ := exists_sos_response sos (signal ((selectIdx (inPySlice 1 none threeRows.length) threeRows).map fun row (j : Fin (keptChannels [1] 2).length) =>
    row (keptChannels [1] 2)[j]))
  obtain ⟨v, hv⟩ := exists_sos_response sos (signal ((selectIdx (inPySlice 1 none otherRows.length) otherRows).map fun row (j : Fin (keptChannels [1] 2).length) =>
    row (keptChannels [1] 2)[j]))
  exact (C155_mixture (S := Whole) (.samples threeRows (by simp [threeRows])) (.samples otherRows (by simp [otherRows])) rfl trivial trivial trivial
    (.filter (.mask .here 1 none [1] (fun _ h => h) (by decide +kernel) (by decide +kernel)) sos hu hv) 2 (by decide)).1

example (sos : List (Sos ℚ)) : (Chain.average 2 (.filter sos (.calib (List.ofFn fun _ : Fin 2 => 3) (.samples threeRows)))).result 1 =
    (Chain.calib (List.ofFn fun _ : Fin 2 => 3) (.average 2 (.filter sos (.samples threeRows)))).result 1 := by
  obtain ⟨u, hu⟩ := exists_sos_response sos (signal threeRows)
  exact (C155_scale two_pos (S := fun _ => True) (.samples threeRows (by simp [threeRows])) 3 trivial trivial two_pos
    (.average (.filter .here sos hu hu) 2 two_pos) 1 one_pos).1

/-- Hypotheses of `C155_calib`, `C155_channels`: -/
example (sos : List (Sos ℚ)) (f : Fin 2 → ℚ) : (Chain.calib (List.ofFn f) (.average 2 (.filter sos (.samples threeRows)))).result 1 =
    (Chain.average 2 (.filter sos (.calib (List.ofFn f) (.samples threeRows)))).result 1 ∧
    (Chain.channels (List.ofFn f) (.cumAverage (.filter sos (.samples threeRows)))).result 1 =
    (Chain.cumAverage (.filter sos (.channels (List.ofFn f) (.samples threeRows)))).result 1 := by
  obtain ⟨u, hu⟩ := exists_sos_response sos (signal threeRows)
  exact ⟨(C155_calib two_pos (.samples threeRows (by simp [threeRows])) f (.average (.filter .here sos hu) 2 two_pos) 1 one_pos).1,
    (C155_channels two_pos (.samples threeRows (by simp [threeRows])) f (.cumAverage (.filter .here sos hu)) 1 one_pos).1⟩

/-- Hypothesis of `C155_transfer`: a section that cancels another one is as good as none. -/
example : SameTransfer [(⟨1, 0, 0, 2, 0⟩ : Sos ℚ), ⟨1, 2, 0, 0, 0⟩] [] := by
  simp only [SameTransfer, List.map_cons, List.map_nil, List.prod_cons, List.prod_nil, mul_one, one_mul]
  rw [mul_comm]
  rfl

/-! ### What may not be exchanged -/

/-- **C155** (limits) `TimePower` is not among the linear objects (powers of a mixture are not sums of powers), and selection of samples, average and
reversal may not be exchanged with a filter: a filter starts from rest at the first sample it receives. -/
theorem C155_limits : ∃ (c d : Chain ℚ 1) (a b : List (Fin 1 → ℚ)) (sos : List (Sos ℚ)), Means c a ∧ Means d b ∧ b.length = a.length ∧
    ((Chain.power (.mixer c d)).result 2).blocks.flatten ≠ ((Chain.mixer (.power c) (.power d)).result 2).blocks.flatten ∧
    ((Chain.filter sos (.average 2 c)).result 2).blocks.flatten ≠ ((Chain.average 2 (.filter sos c)).result 2).blocks.flatten ∧
    ((Chain.filter sos (.reverse (fun _ _ => 0) c)).result 2).blocks.flatten ≠ ((Chain.reverse (fun _ _ => 0) (.filter sos c)).result 2).blocks.flatten ∧
    (((Chain.filter sos (.mask 1 none [] c)).result 2).blocks.flatten.map List.ofFn ≠
      ((Chain.mask 1 none [] (.filter sos c)).result 2).blocks.flatten.map List.ofFn) := by
  refine ⟨.samples [fun _ => 1, fun _ => 2, fun _ => 4, fun _ => 8], .samples [fun _ => 1, fun _ => 1, fun _ => 1, fun _ => 1], _, _, [⟨1, 1, 0, 0, 0⟩],
    .samples _ (by simp), .samples _ (by simp), by simp, ?_, ?_, ?_, ?_⟩ <;> decide +kernel

end Acoular
