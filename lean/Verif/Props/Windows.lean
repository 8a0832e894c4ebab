import Verif.Model.Spectra
import Verif.Spec.Spectra
import Verif.Lemmas.StreamModel
import Mathlib.Data.Rat.Floor
import Mathlib.Tactic.Ring
import Mathlib.Tactic.Linarith
import Mathlib.Tactic.FieldSimp

/-!
# Property theorems: overlapped windows (C14), number of blocks (C16)
-/

namespace Acoular

open Spec

variable {α : Type*}

/-- Number of windows for `n` rows. -/
def winCount (bs ov n : ℕ) : ℕ := if n < bs then 0 else (n - bs) * ov / bs + 1

theorem lt_winCount {bs ov : ℕ} (hb : 0 < bs) (ho : 0 < ov) (n k : ℕ) :
    k < winCount bs ov n ↔ k * bs + bs * ov ≤ n * ov := by
  unfold winCount
  split
  · next h =>
    constructor
    · intro h'; omega
    · intro h'
      have : n * ov < bs * ov := Nat.mul_lt_mul_of_pos_right h ho
      omega
  · next h =>
    rw [Nat.lt_succ_iff, Nat.le_div_iff_mul_le hb, Nat.sub_mul]
    have : bs * ov ≤ n * ov := Nat.mul_le_mul_right ov (by omega)
    omega

private theorem filter_range_lt (m c : ℕ) (hc : c ≤ m) : (List.range m).filter (fun k => decide (k < c)) = List.range c := by
  obtain ⟨d, rfl⟩ := Nat.exists_eq_add_of_le hc
  rw [List.range_add, List.filter_append]
  rw [List.filter_eq_self.2 (by intro a ha; simpa using ha)]
  rw [List.filter_eq_nil_iff.2 (by intro a ha; simp at ha; simp; omega), List.append_nil]

theorem windows_eq {bs ov : ℕ} (hb : 0 < bs) (ho : 0 < ov) (data : List α) :
    windows bs ov data = (List.range (winCount bs ov data.length)).map fun k => (data.drop (k * bs / ov)).take bs := by
  unfold windows
  congr 1
  have : (fun k => decide (k * bs + bs * ov ≤ data.length * ov)) = fun k => decide (k < winCount bs ov data.length) := by
    funext k; rw [decide_eq_decide]; exact (lt_winCount hb ho _ _).symm
  rw [this, filter_range_lt]
  unfold winCount
  split
  · omega
  · have h1 : (data.length - bs) * ov / bs ≤ (data.length - bs) * ov := Nat.div_le_self _ _
    have h2 : (data.length - bs) * ov ≤ data.length * ov := Nat.mul_le_mul_right _ (by omega)
    omega

/-- One window of the buffer is the window of the data. -/
private theorem window_eq {bs ov : ℕ} (ho : 0 < ov) (data temp : List α) (m ns : ℕ)
    (htemp : ∀ i, bs ≤ i + m * bs → i < bs + ns → temp[i]? = data[i + m * bs - bs]?)
    (posU k : ℕ) (h1 : posU + m * bs * ov = k * bs + bs * ov) (h2 : posU ≤ ns * ov) :
    slice temp (posU / ov) (posU / ov + bs) = (data.drop (k * bs / ov)).take bs := by
  have hp : posU / ov + m * bs = k * bs / ov + bs := by
    have := congrArg (· / ov) h1
    rwa [Nat.add_mul_div_right _ _ ho, Nat.add_mul_div_right _ _ ho] at this
  generalize k * bs / ov = q at hp ⊢
  have hns : posU / ov ≤ ns := Nat.div_le_of_le_mul (by rw [Nat.mul_comm]; exact h2)
  apply List.ext_getElem?
  intro i
  unfold slice
  rw [List.getElem?_drop, List.getElem?_take, List.getElem?_take]
  by_cases hi : i < bs
  · rw [if_pos (by omega), if_pos hi, List.getElem?_drop, htemp _ (by omega) (by omega)]
    congr 1
    omega
  · rw [if_neg (by omega), if_neg hi]

/-- One round of the inner loop. `m` blocks were processed before, the window number `k` is next. -/
private theorem winInner_eq {bs ov : ℕ} (hb : 0 < bs) (ho : 0 < ov) (data temp : List α) (m ns : ℕ)
    (htemp : ∀ i, bs ≤ i + m * bs → i < bs + ns → temp[i]? = data[i + m * bs - bs]?) :
    ∀ (fuel posU k : ℕ), posU + m * bs * ov = k * bs + bs * ov →
      winCount bs ov (m * bs + ns) ≤ k + fuel → k ≤ winCount bs ov (m * bs + ns) →
      winInner bs ov temp ns fuel posU =
        ((List.range' k (winCount bs ov (m * bs + ns) - k)).map fun k => (data.drop (k * bs / ov)).take bs,
          posU + (winCount bs ov (m * bs + ns) - k) * bs) := by
  intro fuel
  induction fuel with
  | zero =>
    intro posU k h1 h2 h3
    rw [show winCount bs ov (m * bs + ns) - k = 0 by omega]
    simp [winInner]
  | succ fuel ih =>
    intro posU k h1 h2 h3
    have hk := lt_winCount hb ho (m * bs + ns) k
    rw [Nat.add_mul] at hk
    by_cases hlt : k < winCount bs ov (m * bs + ns)
    · have hle : posU ≤ ns * ov := by have := hk.1 hlt; omega
      rw [winInner, if_pos hle]
      dsimp only
      rw [window_eq ho data temp m ns htemp posU k h1 hle]
      rw [ih (posU + bs) (k + 1) (by rw [Nat.add_mul k 1 bs]; omega) (by omega) (by omega)]
      obtain ⟨d, hd⟩ : ∃ d, winCount bs ov (m * bs + ns) - k = d + 1 := ⟨winCount bs ov (m * bs + ns) - k - 1, by omega⟩
      rw [hd, show winCount bs ov (m * bs + ns) - (k + 1) = d by omega]
      rw [List.range'_succ, List.map_cons, Nat.add_mul d 1 bs]
      congr 1
      omega
    · have hle : ¬ posU ≤ ns * ov := by
        intro h; exact hlt (hk.2 (by omega))
      rw [winInner, if_neg hle, show winCount bs ov (m * bs + ns) - k = 0 by omega]
      simp

private theorem winCount_mono {bs ov : ℕ} (hb : 0 < bs) (ho : 0 < ov) {a b : ℕ} (h : a ≤ b) :
    winCount bs ov a ≤ winCount bs ov b := by
  by_contra hc
  have h1 := (lt_winCount hb ho a (winCount bs ov b)).1 (by omega)
  have h2 := mt (lt_winCount hb ho b (winCount bs ov b)).2 (lt_irrefl _)
  have := Nat.mul_le_mul_right ov h
  omega

private theorem winCount_le {bs ov : ℕ} (hb : 0 < bs) (n : ℕ) : winCount bs ov n ≤ n * ov + 1 := by
  unfold winCount
  split
  · omega
  · have h1 : (n - bs) * ov / bs ≤ (n - bs) * ov := Nat.div_le_self _ _
    have h2 : (n - bs) * ov ≤ n * ov := Nat.mul_le_mul_right _ (by omega)
    omega

/-- Steps of the inner loop needed for one block of `ns` rows. -/
private theorem winCount_step {bs ov : ℕ} (hb : 0 < bs) (ho : 0 < ov) (a ns : ℕ) :
    winCount bs ov (a + ns) ≤ winCount bs ov a + (ns * ov + 1) := by
  by_contra hc
  push Not at hc
  have h1 := (lt_winCount hb ho (a + ns) _).1 hc
  have h2 := mt (lt_winCount hb ho a (winCount bs ov a)).2 (lt_irrefl _)
  have e1 := Nat.add_mul a ns ov
  have e2 := Nat.add_mul (winCount bs ov a) (ns * ov + 1) bs
  have : ns * ov + 1 ≤ (ns * ov + 1) * bs := Nat.le_mul_of_pos_right _ hb
  omega

/-- The whole loop: `pre` are the rows of the `m` full blocks already processed. -/
private theorem winLoop_eq {bs ov : ℕ} (hb : 0 < bs) (ho : 0 < ov) (data : List α) :
    ∀ (rest : List α) (m : ℕ) (temp : List α) (posU : ℕ), data.drop (m * bs) = rest → m * bs ≤ data.length →
      temp.length = 2 * bs →
      (∀ i, bs ≤ i + m * bs → i < bs → temp[i]? = data[i + m * bs - bs]?) →
      posU + m * bs * ov = winCount bs ov (m * bs) * bs + bs * ov →
      winLoop bs ov temp posU (chunks bs rest) =
        (List.range' (winCount bs ov (m * bs)) (winCount bs ov data.length - winCount bs ov (m * bs))).map
          fun k => (data.drop (k * bs / ov)).take bs := by
  intro rest
  induction rest using chunk_induction hb with
  | nil =>
    intro m temp posU hd hm _ _ _
    have : data.length = m * bs := by
      have := congrArg List.length hd
      rw [List.length_drop, List.length_nil] at this
      omega
    rw [this, chunks_nil]
    simp [winLoop]
  | step rest hne ih =>
    intro m temp posU hd hm htl htemp hpos
    rw [chunks_step hb hne, winLoop]
    have hlen : rest.length = data.length - m * bs := by rw [← hd, List.length_drop]
    have hpos' : 0 < rest.length := List.length_pos_iff.2 hne
    set ns := (rest.take bs).length with hns
    have hns' : ns = min bs rest.length := by rw [hns, List.length_take]
    set temp1 := temp.take bs ++ rest.take bs ++ temp.drop (bs + ns) with ht1
    have hl1 : temp1.length = 2 * bs := by
      rw [ht1, List.length_append, List.length_append, List.length_take, List.length_drop, ← hns]; omega
    have htemp1 : ∀ i, bs ≤ i + m * bs → i < bs + ns → temp1[i]? = data[i + m * bs - bs]? := by
      intro i h1 h2
      rw [ht1, List.append_assoc]
      have htk : (temp.take bs).length = bs := by rw [List.length_take]; omega
      by_cases hi : i < bs
      · rw [List.getElem?_append_left (by omega), List.getElem?_take, if_pos hi]
        exact htemp i h1 hi
      · rw [List.getElem?_append_right (by omega), htk, List.getElem?_append_left (by omega),
          List.getElem?_take, if_pos (by omega), ← hd, List.getElem?_drop]
        congr 1
        omega
    rw [winInner_eq hb ho data temp1 m ns htemp1 (ns * ov + 1) posU (winCount bs ov (m * bs)) hpos
      (winCount_step hb ho _ _) (winCount_mono hb ho (by omega))]
    dsimp only
    by_cases hfull : bs ≤ rest.length
    · have hnsb : ns = bs := by omega
      have hc : (m + 1) * bs = m * bs + ns := by rw [hnsb, Nat.add_mul, Nat.one_mul]
      have hmono : winCount bs ov (m * bs) ≤ winCount bs ov (m * bs + ns) := winCount_mono hb ho (by omega)
      have hmono2 : winCount bs ov (m * bs + ns) ≤ winCount bs ov data.length := winCount_mono hb ho (by omega)
      have hsub : (winCount bs ov (m * bs + ns) - winCount bs ov (m * bs)) * bs
          = winCount bs ov (m * bs + ns) * bs - winCount bs ov (m * bs) * bs := Nat.sub_mul _ _ _
      have hmonob := Nat.mul_le_mul_right bs hmono
      have hge : m * bs * ov + ns * ov < winCount bs ov (m * bs + ns) * bs + bs * ov := by
        have := mt (lt_winCount hb ho (m * bs + ns) (winCount bs ov (m * bs + ns))).2 (lt_irrefl _)
        rw [Nat.add_mul] at this
        omega
      have hnsov : ns * ov = bs * ov := by rw [hnsb]
      rw [ih (m + 1)]
      · rw [hc, ← List.map_append]
        have hr := List.range'_append_1 (s := winCount bs ov (m * bs))
          (m := winCount bs ov (m * bs + ns) - winCount bs ov (m * bs))
          (n := winCount bs ov data.length - winCount bs ov (m * bs + ns))
        rw [show winCount bs ov (m * bs) + (winCount bs ov (m * bs + ns) - winCount bs ov (m * bs))
          = winCount bs ov (m * bs + ns) by omega] at hr
        rw [hr]
        congr 2
        omega
      · rw [hc, ← List.drop_drop, hd, hnsb]
      · rw [hc]; omega
      · rw [List.length_append, List.length_drop]; omega
      · intro i h1 h2
        rw [List.getElem?_append_left (by rw [List.length_drop]; omega), List.getElem?_drop,
          htemp1 _ (by omega) (by omega)]
        congr 1
        omega
      · rw [hc, Nat.add_mul]; omega
    · have hdrop : rest.drop bs = [] := List.drop_eq_nil_of_le (by omega)
      rw [hdrop, chunks_nil]
      rw [show m * bs + ns = data.length by omega]
      simp [winLoop]

/-- **C14.** For every block size, overlap factor and signal, the windows taken from the source are exactly the
windows the overlap setting asks for, whatever the uninitialised buffer contained. -/
theorem C14_windows {bs ov : ℕ} (hb : 0 < bs) (ho : 0 < ov) (data junk : List α) (hj : junk.length = 2 * bs)
    (blocks : List (List α)) (hsrc : IsBlocking bs data blocks) :
    getSourceData bs ov junk blocks = windows bs ov data := by
  rw [(isBlocking_iff hb).1 hsrc, windows_eq hb ho]
  unfold getSourceData
  have h0 : winCount bs ov (0 * bs) = 0 := by simp [winCount, hb]
  rw [winLoop_eq hb ho data data 0 junk (bs * ov) (by simp) (by simp) hj (by intro i h1 h2; omega)
    (by rw [h0]; simp), h0, Nat.sub_zero, List.range_eq_range']

/-- **C14.** Every window is a complete, contiguous piece of the signal. -/
theorem C14_windows_inside {bs ov : ℕ} (hb : 0 < bs) (ho : 0 < ov) (data : List α) :
    ∀ w ∈ windows bs ov data, w.length = bs ∧ ∃ a b, data = a ++ w ++ b := by
  intro w hw
  unfold windows at hw
  simp only [List.mem_map, List.mem_filter, decide_eq_true_eq] at hw
  obtain ⟨k, ⟨_, h⟩, rfl⟩ := hw
  have h2 : k * bs / ov + bs ≤ data.length := by
    rw [← Nat.add_mul_div_right _ _ ho]
    exact Nat.div_le_of_le_mul (by rw [Nat.mul_comm ov]; exact h)
  refine ⟨by rw [List.length_take, List.length_drop]; omega, data.take (k * bs / ov),
    (data.drop (k * bs / ov)).drop bs, ?_⟩
  rw [List.append_assoc, List.take_append_drop, List.take_append_drop]

/-- The hypotheses of `C14_windows_inside` are met: -/
example := C14_windows_inside (bs := 4) (ov := 2) (by decide) (by decide) (List.range 11)

/-- Consecutive windows start `bs / ov` rows apart when `ov` divides `bs`. -/
theorem C14_windows_start {bs ov : ℕ} (hb : 0 < bs) (ho : 0 < ov) (hd : ov ∣ bs) (data : List α) (k : ℕ)
    (hk : k < (windows bs ov data).length) :
    (windows bs ov data)[k]? = some ((data.drop (k * (bs / ov))).take bs) := by
  have e := windows_eq hb ho data
  rw [e, List.length_map, List.length_range] at hk
  rw [e, List.getElem?_map, List.getElem?_range hk, Option.map_some, Nat.mul_div_assoc _ hd]

/-- The hypotheses of `C14_windows_start` are met: -/
example := C14_windows_start (bs := 4) (ov := 2) (by decide) (by decide) (by decide) (List.range 11) 1 (by decide)

/-- Number of windows used. -/
theorem C14_windows_length {bs ov : ℕ} (hb : 0 < bs) (ho : 0 < ov) (data : List α) (h : bs ≤ data.length) :
    (windows bs ov data).length = (data.length - bs) * ov / bs + 1 := by
  rw [windows_eq hb ho, List.length_map, List.length_range, winCount, if_neg (by omega)]

example : getSourceData 4 2 (List.replicate 8 99) (chunks 4 (List.range 11))
    = [[0, 1, 2, 3], [2, 3, 4, 5], [4, 5, 6, 7], [6, 7, 8, 9]] := by
  rw [C14_windows (by omega) (by omega) (List.range 11) _ (by simp) _ (isBlocking_chunks (by omega) _)]
  decide

/-! ### Snapshots of the transform -/

private theorem rfftLoop_eq {β : Type*} {num : ℕ} (hn : 0 < num) (snaps : List β) :
    ∀ (p : List β) (i j : ℕ) (fftdata : List β), p.length < num → i % num = p.length → fftdata.length = num →
      fftdata.take p.length = p → (p ≠ [] → j = p.length - 1) → (p = [] → snaps = [] → j = num - 1) →
      RFFT.loop num i j fftdata snaps = chunks num (p ++ snaps) := by
  induction snaps with
  | nil =>
    intro p i j fftdata hp hi hf ht hj hj'
    rw [List.append_nil, RFFT.loop]
    by_cases hpn : p = []
    · subst hpn
      rw [hj' rfl rfl, if_neg (by omega), chunks_nil]
    · have hpl : 0 < p.length := List.length_pos_iff.2 hpn
      rw [hj hpn, if_pos (by omega), show p.length - 1 + 1 = p.length by omega, ht, chunks_step hn hpn,
        List.take_of_length_le (by omega), List.drop_eq_nil_of_le (by omega), chunks_nil]
  | cons s rest ih =>
    intro p i j fftdata hp hi hf ht hj hj'
    rw [RFFT.loop]
    rw [hi]
    have htake : (fftdata.set p.length s).take (p.length + 1) = p ++ [s] := by
      rw [List.take_add_one, List.take_set_of_le (le_refl _), ht,
        List.getElem?_set_self (by omega)]
      rfl
    by_cases hfull : p.length = num - 1
    · rw [if_pos hfull]
      have hall : fftdata.set p.length s = p ++ [s] := by
        rw [← htake, List.take_of_length_le (by rw [List.length_set]; omega)]
      rw [ih [] (i + 1) p.length _ (by simpa using hn) ?_ (by rw [List.length_set]; exact hf) (by simp)
        (by simp) (by intro _ _; exact hfull), hall, List.nil_append]
      · rw [show p ++ s :: rest = (p ++ [s]) ++ rest by simp]
        rw [chunks_append_full hn (by simp; omega)]
      · have : (i + 1) % num = (i % num + 1) % num := by simp
        rw [this, hi, show p.length + 1 = num by omega, Nat.mod_self]
        rfl
    · rw [if_neg hfull]
      rw [ih (p ++ [s]) (i + 1) p.length _ (by simp; omega) ?_ (by rw [List.length_set]; exact hf)
        (by rw [List.length_append]; exact htake) (by simp) (by simp)]
      · simp
      · have : (i + 1) % num = (i % num + 1) % num := by simp
        rw [this, hi, List.length_append]
        exact Nat.mod_eq_of_lt (by omega)

/-- **C14.** As soon as the signal contains at least one window, `RFFT.result` delivers one spectrum per window,
in order, cut into blocks of `num` spectra. -/
theorem C14_rfft_snapshots {β : Type*} {bs ov num : ℕ} (hb : 0 < bs) (ho : 0 < ov) (hn : 0 < num)
    (data junk : List α) (hj : junk.length = 2 * bs) (blocks : List (List α)) (hsrc : IsBlocking bs data blocks)
    (f : List α → β) (zero : β) (hlen : bs ≤ data.length) :
    IsBlocking num ((windows bs ov data).map f)
      (RFFT.result f zero (getSourceData bs ov junk blocks) num) := by
  rw [C14_windows hb ho data junk hj blocks hsrc, isBlocking_iff hn, RFFT.result,
    rfftLoop_eq hn _ [] 0 0 _ (by simpa using hn) (by simp) (by simp) (by simp) (by simp) ?_, List.nil_append]
  intro _ h
  have h2 := C14_windows_length hb ho data hlen
  exfalso
  have h3 := congrArg List.length h
  rw [List.length_map, List.length_nil, h2] at h3
  exact Nat.succ_ne_zero _ h3

example : RFFT.result List.sum 0 (getSourceData 2 1 (List.replicate 4 0) (chunks 2 [1, 2, 3, 4, 5, 6, 7])) 2
    = [[3, 7], [11]] := by decide

/-- **C14, violated part.** For a signal shorter than one window and `num ≥ 2`, `RFFT.result` delivers one
block with a spectrum of zeros although there is no window. -/
theorem C14_rfft_empty_violated {β : Type*} {bs ov num : ℕ} (hb : 0 < bs) (ho : 0 < ov) (hn : 2 ≤ num)
    (data junk : List α) (hj : junk.length = 2 * bs) (blocks : List (List α)) (hsrc : IsBlocking bs data blocks)
    (f : List α → β) (zero : β) (hlen : data.length < bs) :
    windows bs ov data = [] ∧ RFFT.result f zero (getSourceData bs ov junk blocks) num = [[zero]] := by
  have h : windows bs ov data = [] := by
    rw [windows_eq hb ho, winCount, if_pos hlen]; rfl
  refine ⟨h, ?_⟩
  rw [C14_windows hb ho data junk hj blocks hsrc, h, RFFT.result, List.map_nil, RFFT.loop, if_pos (by omega)]
  obtain ⟨n, rfl⟩ : ∃ n, num = n + 1 := ⟨num - 1, by omega⟩
  rw [List.replicate_succ]
  rfl

/-- **C14, violated part.** The announced number of spectra ignores the overlap: with overlap factor 2 and a signal
of at least two blocks it is smaller than the number delivered. -/
theorem C14_rfft_announced_violated {bs : ℕ} (hb : 0 < bs) (data : List α) (hlen : 2 * bs ≤ data.length) :
    RFFT.numSamples data.length bs < (windows bs 2 data).length := by
  rw [C14_windows_length hb (by omega) data (by omega)]
  unfold RFFT.numSamples
  rw [if_pos (by omega)]
  norm_cast
  have h1 : data.length / bs = (data.length - bs) / bs + 1 := by
    conv_lhs => rw [show data.length = data.length - bs + bs by omega]
    rw [Nat.add_div_right _ hb]
  have h2 : (data.length - bs) * 2 / bs ≥ (data.length - bs) / bs + 1 := by
    rw [ge_iff_le, ← Nat.add_div_right _ hb]
    exact Nat.div_le_div_right (by omega)
  omega

/-- Without overlap the announced number of spectra is right. -/
theorem C14_rfft_announced_partial {bs : ℕ} (hb : 0 < bs) (data : List α) :
    RFFT.numSamples data.length bs = (windows bs 1 data).length := by
  rw [windows_eq hb (by omega), List.length_map, List.length_range, RFFT.numSamples, if_pos (by omega)]
  norm_cast
  unfold winCount
  split
  · next h => exact Nat.div_eq_of_lt h
  · next h =>
    rw [Nat.mul_one]
    conv_lhs => rw [show data.length = data.length - bs + bs by omega]
    rw [Nat.add_div_right _ hb]

/-- The hypotheses of `C14_rfft_announced_partial` are met: -/
example := C14_rfft_announced_partial (bs := 4) (by decide) (List.range 11)

/-! ### Number of blocks (C16) -/

/-- The rational `num_blocks` is the exact quotient of the number of steps. -/
private theorem numBlocks_eq {bs ov n : ℕ} (hb : 0 < bs) (h : bs ≤ n) :
    numBlocks ov n bs = (((n - bs) * ov : ℕ) : ℚ) / bs + 1 := by
  have hb' : (bs : ℚ) ≠ 0 := by exact_mod_cast hb.ne'
  unfold numBlocks
  rw [Nat.cast_mul, Nat.cast_sub h]
  field_simp

/-- **C16, partial.** The number of windows accumulated is the floor of `num_blocks`. -/
theorem C16_count_floor_partial {bs ov : ℕ} (hb : 0 < bs) (ho : 0 < ov) (data : List α) (h : bs ≤ data.length) :
    ((windows bs ov data).length : ℤ) = ⌊numBlocks ov data.length bs⌋ := by
  rw [C14_windows_length hb ho data h, numBlocks_eq hb h, Int.floor_add_one]
  rw [Rat.floor_natCast_div_natCast]
  push_cast
  rfl

/-- The hypotheses of `C16_count_floor_partial` are met: -/
example := C16_count_floor_partial (bs := 4) (ov := 2) (by decide) (by decide) (List.range 11) (by decide)

/-- **C16.** `num_blocks` counts the windows exactly if and only if the overlap factor times the number of
samples is a multiple of the block size. -/
theorem C16_count_iff {bs ov : ℕ} (hb : 0 < bs) (ho : 0 < ov) (data : List α) (h : bs ≤ data.length) :
    numBlocks ov data.length bs = (windows bs ov data).length ↔ bs ∣ ov * data.length := by
  have hb' : (bs : ℚ) ≠ 0 := by exact_mod_cast hb.ne'
  rw [C14_windows_length hb ho data h, numBlocks_eq hb h]
  push_cast
  rw [add_left_inj, div_eq_iff hb']
  have e : ov * data.length = (data.length - bs) * ov + bs * ov := by
    rw [← Nat.add_mul, Nat.sub_add_cancel h, Nat.mul_comm]
  rw [e, Nat.dvd_add_left (Dvd.intro _ rfl)]
  norm_cast
  constructor
  · intro h'; exact Dvd.intro_left _ h'.symm
  · intro h'; rw [Nat.div_mul_cancel h']

/-- The hypotheses of `C16_count_iff` are met: -/
example := C16_count_iff (bs := 4) (ov := 2) (by decide) (by decide) (List.range 11) (by decide)

/-- **C16, violated.** 1500 samples, block size 1024, no overlap: one window is accumulated, but the sum is
divided by 375/256. -/
theorem C16_count_violated : (windows 1024 1 (List.replicate 1500 ())).length = 1 ∧
    numBlocks 1 1500 1024 = 375 / 256 := by
  constructor
  · rw [C14_windows_length (by omega) (by omega) _ (by rw [List.length_replicate]; omega), List.length_replicate]
  · norm_num [numBlocks]

example : numBlocks 2 10240 1024 = 19 := by norm_num [numBlocks]

end Acoular
