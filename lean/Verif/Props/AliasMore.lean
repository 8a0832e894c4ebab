import Verif.Model.AliasMore
import Verif.Spec.Stream
import Verif.Props.SamplesBuffer

/-!
# C59 continued: blocks of `RFFT`, `SamplesBuffer` and `IRFFT`
-/

namespace Acoular

open Spec

variable {V : Type*} [Add V]

private theorem write_row (h : Heap V) (t j : Nat) (s : V) (hj : j < (h t).length) : (h.write ⟨t, j, 1⟩ [s]) t = (h t).set j s := by
  simp only [Heap.write, if_true]
  rw [List.set_eq_take_append_cons_drop, if_pos hj]
  simp

/-- **C59** (RFFT) A consumer that uses each block of spectra before asking for the next one sees what the value model (C14) says. -/
theorem C59_rfft_now (t num : Nat) (hn : 0 < num) (snaps : List V) (h : Heap V) (ht : (h t).length = num) :
    seenNow h (RFFT.acts t num 0 0 snaps) = RFFT.loop num 0 0 (h t) snaps := by
  suffices key : ∀ (snaps : List V) (i j : Nat) (h : Heap V), (h t).length = num →
      seenNow h (RFFT.acts t num i j snaps) = RFFT.loop num i j (h t) snaps from key snaps 0 0 h ht
  intro snaps
  induction snaps with
  | nil =>
    intro i j h ht
    rw [RFFT.acts, RFFT.loop]
    split
    · simp [seenNow, Heap.read]
    · rfl
  | cons s rest ih =>
    intro i j h ht
    have hj : i % num < num := Nat.mod_lt _ hn
    have e := write_row h t (i % num) s (by omega)
    rw [RFFT.acts, RFFT.loop, seenNow]
    have hl : ((h.write ⟨t, i % num, 1⟩ [s]) t).length = num := by rw [e, List.length_set, ht]
    simp only [Act.exec]
    by_cases hc : i % num = num - 1
    · simp only [if_pos hc]
      rw [List.singleton_append, seenNow, ih _ _ _ hl, e]
      congr 1
      simp only [Heap.read, e, List.drop_zero]
      rw [List.take_of_length_le (by rw [List.length_set]; omega)]
    · simp only [if_neg hc, List.nil_append]
      rw [ih _ _ _ hl, e]
    all_goals simp

/-- **C59** (violated) `RFFT` with one spectrum per block: a consumer that collects the blocks sees the last spectrum over and over, whatever the
signal. -/
theorem C59_rfft_violated (t : Nat) (snaps : List V) (s : V) (h : Heap V) (ht : (h t).length = 1) :
    seenNow h (RFFT.acts t 1 0 0 (snaps ++ [s])) = (snaps ++ [s]).map (fun x => [x]) ∧
      seenLate h (RFFT.acts t 1 0 0 (snaps ++ [s])) = List.replicate (snaps.length + 1) [s] := by
  have ha : ∀ (l : List V) (i j : Nat), RFFT.acts t 1 i j l = l.flatMap fun x => [.assign ⟨t, 0, 1⟩ [x], .yield ⟨t, 0, 1⟩] := by
    intro l
    induction l with
    | nil => intro i j; simp [RFFT.acts]
    | cons x l ih => intro i j; rw [RFFT.acts, ih]; simp [Nat.mod_one]
  have hrow : ∀ (h : Heap V) (x : V), (h t).length = 1 → (h.write ⟨t, 0, 1⟩ [x]) t = [x] := by
    intro h x ht
    rw [write_row h t 0 x (by omega)]
    match hh : h t, ht with
    | [y], _ => rfl
  constructor
  · rw [C59_rfft_now t 1 (by decide) _ h ht]
    have : ∀ (l : List V) (i j : Nat) (f : List V), f.length = 1 → RFFT.loop 1 i j f l = l.map fun x => [x] := by
      intro l
      induction l with
      | nil => intro i j f hf; simp [RFFT.loop]
      | cons x l ih =>
        intro i j f hf
        match f, hf with
        | [y], _ => simp [RFFT.loop, Nat.mod_one, ih]
    exact this _ 0 0 _ ht
  · rw [ha]
    have hr : ∀ (l : List V) (x : V) (h : Heap V), (h t).length = 1 →
        runHeap h ((l ++ [x]).flatMap fun x => [.assign ⟨t, 0, 1⟩ [x], .yield ⟨t, 0, 1⟩]) t = [x] := by
      intro l x
      induction l with
      | nil => intro h ht; simpa [runHeap, Act.exec] using hrow h x ht
      | cons y l ih =>
        intro h ht
        have := ih (h.write ⟨t, 0, 1⟩ [y]) (by rw [hrow h y ht]; rfl)
        simpa [runHeap, Act.exec] using this
    have hy : ∀ l : List V, yielded (l.flatMap fun x => [Act.assign ⟨t, 0, 1⟩ [x], .yield ⟨t, 0, 1⟩]) = List.replicate l.length ⟨t, 0, 1⟩ := by
      intro l
      induction l with
      | nil => rfl
      | cons y l ih =>
        have : yielded ((y :: l).flatMap fun x => [Act.assign ⟨t, 0, 1⟩ [x], .yield ⟨t, 0, 1⟩]) =
            ⟨t, 0, 1⟩ :: yielded (l.flatMap fun x => [Act.assign ⟨t, 0, 1⟩ [x], .yield ⟨t, 0, 1⟩]) := rfl
        rw [this, ih]
        rfl
    rw [seenLate, hy, List.map_replicate, Heap.read, hr snaps s h ht]
    simp

private theorem seenNow_fill (z : V) (t snum : Nat) (L : Nat) : ∀ (src : List (List V)) (s : SBuf V) (h : Heap V) (tail : List (Act V)),
    s.buf.length = L → h t = s.buf →
    ∃ h', seenNow h (SBuf.fillActs t snum src s ++ tail) = seenNow h' tail ∧ ∀ s1, s.fill z snum none src = .ok s1 → h' t = s1.buf ∧ s1.buf.length = L := by
  intro src
  induction src with
  | nil =>
    intro s h tail hl ht
    unfold SBuf.fillActs SBuf.fill
    refine ⟨h, by split <;> rfl, fun s1 e => ?_⟩
    split at e
    · simp only [SBuf.increase, Except.ok.injEq] at e
      subst e
      exact ⟨ht, hl⟩
    · simp only [Except.ok.injEq] at e
      subst e
      exact ⟨ht, hl⟩
  | cons b rest ih =>
    intro s h tail hl ht
    unfold SBuf.fillActs SBuf.fill
    by_cases hi : s.index ≥ snum
    · simp only [if_pos hi, SBuf.increase]
      cases hw : s.write b with
      | error e => exact ⟨h, rfl, fun s1 e => by simp at e⟩
      | ok s2 =>
        have hl2 : s2.buf.length = L := by
          unfold SBuf.write at hw
          simp only at hw
          split at hw
          · simp only [Except.ok.injEq] at hw; subst hw; simp; omega
          · split at hw
            · simp only [Except.ok.injEq] at hw; subst hw; simp; omega
            · cases hw
        simp only [List.cons_append]
        have e : (h.write ⟨t, 0, s2.buf.length⟩ s2.buf) t = s2.buf := by
          simp only [Heap.write, if_true, List.take_zero, List.nil_append, Nat.zero_add]
          rw [List.drop_eq_nil_of_le (by rw [ht]; omega), List.append_nil]
        obtain ⟨h', e1, e2⟩ := ih { s2 with src := rest } (h.write ⟨t, 0, s2.buf.length⟩ s2.buf) tail hl2 e
        exact ⟨h', e1, e2⟩
    · simp only [if_neg hi]
      refine ⟨h, rfl, fun s1 e => ?_⟩
      simp only [Except.ok.injEq] at e
      subst e
      exact ⟨ht, hl⟩

/-- **C59** (SamplesBuffer) A consumer that uses each block before asking for the next one sees what the value model (C07) says. -/
theorem C59_buffer_now (z : V) (t length num snum : Nat) (source : List (List V)) (fuel : Nat) (h : Heap V) (ht : (h t).length = length) :
    seenNow h (SamplesBuffer.acts z t length num snum source fuel) =
      (SamplesBuffer.result z length (some snum) none .resultNum (fun _ => source) num fuel).blocks := by
  have key : ∀ (fuel : Nat) (s : SBuf V) (h : Heap V), s.buf.length = length → h t = s.buf →
      seenNow h (SBuf.loopActs z t num snum fuel s) = (SBuf.loop z num snum none .resultNum fuel s).blocks := by
    intro fuel
    induction fuel with
    | zero => intro s h _ _; rfl
    | succ fuel ih =>
      intro s h hl ht
      have hread : ∀ (s : SBuf V) (h : Heap V), h t = s.buf → h.read (s.readRef t num) = (s.read num none .resultNum).1 := by
        intro s h ht
        simp [Heap.read, SBuf.readRef, SBuf.read, ht]
      rw [SBuf.loopActs, SBuf.loop]
      by_cases he : s.empty = true
      · simp only [he, if_true]
        by_cases hv : s.level > 0
        · simp only [if_pos hv]
          rw [seenNow, hread s h ht, ih (s.read num none .resultNum).2 h hl ht]
          rfl
        · simp only [if_neg hv]; rfl
      · simp only [he, if_false, Bool.false_eq_true]
        have hfill := seenNow_fill z t snum length s.src s h
        cases hf : s.fill z snum none s.src with
        | error e =>
          obtain ⟨h', e1, _⟩ := hfill [] hl ht
          exact e1
        | ok s1 =>
          by_cases hv : s1.level > 0
          · simp only [if_pos hv]
            obtain ⟨h', e1, e2⟩ := hfill (.yield (s1.readRef t num) :: SBuf.loopActs z t num snum fuel (s1.read num none .resultNum).2) hl ht
            obtain ⟨h1, h2⟩ := e2 s1 hf
            rw [e1, seenNow, hread s1 h' h1, ih (s1.read num none .resultNum).2 h' h2 h1]
            rfl
          · simp only [if_neg hv]
            obtain ⟨h', e1, _⟩ := hfill [] hl ht
            exact e1
  rw [SamplesBuffer.acts, SamplesBuffer.result, Option.getD_some]
  refine key fuel _ (h.write ⟨t, 0, length⟩ (List.replicate length z)) (by simp [SBuf.create]) ?_
  simp only [Heap.write, if_true, List.take_zero, List.nil_append, Nat.zero_add, SBuf.create]
  rw [List.drop_eq_nil_of_le (by omega), List.append_nil]

/-- **C59** (violated) The blocks of a `SamplesBuffer` are overwritten with later samples; collecting them does not give the signal. -/
theorem C59_buffer_violated :
    let acts := SamplesBuffer.acts 0 0 4 2 2 [[1, 2], [3, 4], [5, 6]] 20
    seenNow (fun _ => [0, 0, 0, 0]) acts = [[1, 2], [3, 4], [5, 6]] ∧ seenLate (fun _ => [0, 0, 0, 0]) acts = [[3, 4], [3, 4], [5, 6]] := by
  decide

/-- The hypotheses are met: five spectra, two per block. -/
example : seenNow (fun _ => [0, 0]) (RFFT.acts 0 2 0 0 [1, 2, 3, 4, 5]) = [[1, 2], [3, 4], [5]] ∧
    seenLate (fun _ => [0, 0]) (RFFT.acts 0 2 0 0 [1, 2, 3, 4, 5]) = [[5, 4], [5, 4], [5]] := by
  decide

example := C59_rfft_now 0 2 (by decide) [1, 2, 3, 4, 5] (fun _ => [0, 0]) rfl

example := C59_rfft_violated 0 [1, 2, 3] 4 (fun _ => [0]) rfl

example := C59_buffer_now 0 3 4 2 2 [[1, 2], [3, 4], [5, 6]] 20 (fun _ => [0, 0, 0, 0]) rfl

end Acoular
