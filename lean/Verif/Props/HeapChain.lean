import Verif.Lemmas.HeapChain
import Verif.Props.Stream
import Verif.Props.Average
import Verif.Props.Filter

/-!
# C152: chains of processing blocks that share arrays
-/

namespace Acoular

variable {V : Type}

open Spec

/-- **Specification** What the last object of a chain stands for, without any reference to blocks or arrays but the recorded data. -/
inductive Spec.Carries (K : Type) [Field K] [AddCommGroup V] [Module K V] (m : Memory V) : HObj V → List V → Prop
  /-- recorded data -/
  | samples (arr len : Nat) (h : 0 < len) : Carries K m (.samples arr len) ((List.range len).map (m (.data arr)))
  /-- what is simulated -/
  | simulated (signal : List V) : Carries K m (.simulated signal) signal
  /-- noise -/
  | noise (signal : List V) : Carries K m (.noise signal) signal
  /-- every row transformed, in the array received -/
  | inplace {c data} (g : V → V) (h : Carries K m c data) : Carries K m (.inplace g c) (data.map g)
  /-- every row transformed (`Calib`, `TimePower`, `ChannelMixer`) -/
  | rowwise {c data} (g : V → V) (h : Carries K m c data) : Carries K m (.rowwise g c) (data.map g)
  /-- the response of the filter -/
  | filter {c data} {sos : List (Sos K)} {y : ℕ → V} (h : Carries K m c data) (hy : IsSosResponse sos (signal data) y) :
      Carries K m (.filter sos c) ((List.range data.length).map y)
  /-- averages of groups -/
  | average {c data} {nav : Nat} (h : Carries K m c data) (hn : 0 < nav) : Carries K m (.average K nav c) (groupAverages K nav data)
  /-- averages of all rows so far -/
  | cumAverage {c data} (h : Carries K m c data) : Carries K m (.cumAverage K c) (cumulativeAverages K data)
  /-- the same signal (`WriteH5`) -/
  | pass {c data} (h : Carries K m c data) : Carries K m (.pass c) data
  /-- the same signal: everything is in the file -/
  | cacheFull {c data} (stored : Nat → List (List V)) (h : Carries K m c data) (hs : ∀ num, 0 < num → IsBlocking num data (stored num)) :
      Carries K m (.cache true stored c) data
  /-- the same signal: some blocks are in the file -/
  | cachePart {c data} (k : Nat → Nat) (h : Carries K m c data) : Carries K m (.cache false (fun num => (chunks num data).take (k num)) c) data
  /-- the selected rows (and channels) -/
  | mask {c data} {start stop : Nat} (channels : Option (V → V)) (h : Carries K m c data) (hs : start < stop) (ht : stop ≤ data.length) :
      Carries K m (.mask start stop data.length channels c) (((data.take stop).drop start).map (channels.getD id))
  /-- the zero phase filter applied to the whole signal -/
  | zeroPhase {c data} (filtfilt : List V → List V) (h : Carries K m c data) (hl : (filtfilt data).length = data.length) :
      Carries K m (.zeroPhase filtfilt data.length c) (filtfilt data)
  /-- the reversed signal -/
  | reverse {c data} (h : Carries K m c data) (hd : data ≠ []) : Carries K m (.reverse c) data.reverse
  /-- the sum of two signals -/
  | mixer {c d data other} (h : Carries K m c data) (h' : Carries K m d other) (hl : other.length = data.length) :
      Carries K m (.mixer c d) (List.zipWith (· + ·) data other)

/-- **Specification** The blocks of the object are arrays nobody looks at later: a consumer may overwrite them. -/
def Spec.Owned : HObj V → ℕ → Prop
  | .samples .., _ | .running .., _ => False
  | .simulated .., _ | .noise .., _ | .fresh .., _ | .zeroPhase .., _ | .reverse .., _ | .mixer .., _ => True
  | .pass c, num | .inplace _ c, num => Owned c num
  | .cache complete _ c, num => complete = true ∨ Owned c num
  | .mask start stop total channels c, num =>
    if start ≠ 0 ∨ stop ≠ total then oneBlock start stop num → Owned c num ∨ channels.isSome else Owned c num ∨ channels.isSome

/-- **Specification** The object does not overwrite its blocks: a consumer may keep them. -/
def Spec.Keeps : HObj V → ℕ → Prop
  | .samples .., _ | .noise .., _ | .running .., _ | .fresh .., _ | .zeroPhase .., _ => True
  | .simulated .., _ | .reverse .., _ => False
  | .pass c, num | .inplace _ c, num => Keeps c num
  | .cache complete _ c, num => complete = true ∨ Keeps c num
  | .mask start stop total channels c, num => if start ≠ 0 ∨ stop ≠ total then oneBlock start stop num else Keeps c num ∨ channels.isSome
  | .mixer c _, num => Keeps c num

/-- **Specification** `TimeReverse` is connected to objects that do not overwrite their blocks only, and `Mixer` and `SourceMixer` to objects whose
blocks may be overwritten. -/
def Spec.Safe : HObj V → ℕ → Prop
  | .samples .., _ | .simulated .., _ | .noise .., _ => True
  | .inplace _ c, num => Safe c num ∧ Owned c num
  | .fresh mult _ _ c, num => Safe c (num * mult)
  | .running _ _ c, num | .pass c, num | .mask _ _ _ _ c, num | .zeroPhase _ _ c, num => Safe c num
  | .cache complete _ c, num => complete = true ∨ Safe c num
  | .reverse c, num => Safe c num ∧ Keeps c num
  | .mixer c d, num => Safe c num ∧ Safe d num ∧ Owned c num

private theorem freshVals_eq (f : List (List V) → List V) : ∀ (bs hist : List (List V)),
    freshVals f hist bs = ((List.range bs.length).map fun k => f (hist ++ bs.take (k + 1))).filter fun b => decide (b.length > 0)
  | [], _ => rfl
  | b :: bs, hist => by
    have e : (List.range (b :: bs).length).map (fun k => f (hist ++ (b :: bs).take (k + 1))) =
        f (hist ++ [b]) :: (List.range bs.length).map fun k => f ((hist ++ [b]) ++ bs.take (k + 1)) := by
      rw [List.length_cons, List.range_succ_eq_map, List.map_cons, List.map_map]
      simp [Function.comp_def]
    rw [e, freshVals, freshVals_eq f bs, List.filter_cons]
    by_cases h : (f (hist ++ [b])).length > 0
    · rw [if_pos h, if_pos (by simpa using h)]; rfl
    · rw [if_neg h, if_neg (by simpa using h)]; rfl

/-- A generator that makes one block of every block, of the same length. -/
private theorem fresh_trace (G : List (List V) → List (List V)) (hc : ∀ bs k, G (bs.take k) = (G bs).take k) {num : ℕ} (hn : 0 < num) (data out : List V)
    (hl : out.length = data.length) (hG : G (chunks num data) = chunks num out) :
    (∀ k (hk : k < (chunks num data).length), ((G ((chunks num data).take (k + 1))).getLastD []).length = ((chunks num data)[k]).length) ∧
      freshVals (fun seen => (G seen).getLastD []) [] (chunks num data) = chunks num out := by
  have hlen : (chunks num data).length = (chunks num out).length := by simp [chunks, hl]
  have key : ∀ k (hk : k < (chunks num out).length), (G ((chunks num data).take (k + 1))).getLastD [] = (chunks num out)[k] := by
    intro k hk
    rw [hc, hG, List.getLastD_eq_getLast?, List.getLast?_take]
    simp [hk]
  refine ⟨fun k hk => ?_, ?_⟩
  · rw [key k (hlen ▸ hk)]
    simp [chunks, hl]
  · rw [freshVals_eq]
    have : ((List.range (chunks num data).length).map fun k => (G ([] ++ (chunks num data).take (k + 1))).getLastD []) = chunks num out := by
      refine List.ext_getElem (by simp [hlen]) fun k h1 h2 => ?_
      simp only [List.getElem_map, List.getElem_range, List.nil_append]
      exact key k h2
    rw [this, List.filter_eq_self]
    intro b hb
    have := mem_chunks_length hn hb
    simp; omega

private theorem take_filter_loop {K : Type} [Field K] [AddCommGroup V] [Module K V] (sosAt : ℕ → List (Sos K)) : ∀ (bs : List (List V)) (j k : ℕ) (zi : List (V × V)),
    (Filter.loop sosAt j zi (bs.take k)).blocks = (Filter.loop sosAt j zi bs).blocks.take k
  | [], j, k, zi => by simp [Filter.loop, Trace.stop]
  | b :: bs, j, 0, zi => by simp [Filter.loop, Trace.stop]
  | b :: bs, j, k + 1, zi => by
    rw [List.take_succ_cons, Filter.loop, Filter.loop]
    cases h : sosfilt (sosAt j) b zi with
    | error e => simp [Trace.raise]
    | ok o => simp [Trace.cons, take_filter_loop sosAt bs]

/-- The recorded data are as before. -/
def Spec.SameData (m m' : Memory V) : Prop := ∀ a, m' (.data a) = m (.data a)

private theorem supp_same (m : Memory V) : Supp dataCells (SameData m) := by
  intro h h' e hs a
  rw [← hs a]
  funext i
  exact (e (.data a, i) ⟨a, rfl⟩).symm

private theorem runVals_eq (K : Type) [Field K] [AddCommGroup V] [Module K V] : ∀ (bs : List (List V)) (c : ℕ) (accu : V), (∀ b ∈ bs, b ≠ []) →
    runVals (fun count accu temp => (List.range temp.length).map fun j =>
      ((count + 1 + j : Nat) : K)⁻¹ • (((count : Nat) : K) • accu + ((cumsum temp)[j]?).getD 0)) c accu bs = (TimeCumAverage.loop K accu c bs).blocks
  | [], _, _, _ => rfl
  | b :: bs, c, accu, h => by
    rw [runVals, TimeCumAverage.loop]
    have hb : 0 < b.length := List.length_pos_iff.2 (h b (by simp))
    rcases hl : ((List.range b.length).map fun j => ((c + 1 + j : Nat) : K)⁻¹ • (((c : Nat) : K) • accu + ((cumsum b)[j]?).getD 0)).getLast? with _ | l
    · rw [List.getLast?_eq_none_iff] at hl
      have := congrArg List.length hl
      rw [List.length_map, List.length_range, List.length_nil] at this
      omega
    · simp only [Trace.cons, Option.getD_some]
      rw [runVals_eq K bs _ _ fun x hx => h x (by simp [hx])]

theorem chain_ok {K : Type} [Field K] [CharZero K] [AddCommGroup V] [Module K V] {m : Memory V} {obj : HObj V} {data : List V}
    (h : Carries K m obj data) : ∀ (num : ℕ), 0 < num → ∀ p : List ℕ, Safe obj num →
      OK (Owned obj num) (Keeps obj num) (pathCells p) ∅ (SameData m) (obj.deeds p num) (chunks num data) := by
  induction h with
  | samples arr len h =>
    intro num hn p _
    have := views_ok (own := False) (keep := True) (W := pathCells p) (.data arr) hn (fun c hc => .inr ⟨arr, hc⟩) (fun h => h.elim)
      ((List.range len).map (m (.data arr))) 0 ∅ (SameData m) (by simp) (fun h hs => by
        simp only [Memory.read, List.length_map, List.length_range, Nat.zero_add]
        rw [hs arr])
    simpa [HObj.deeds, Owned, Keeps, blockViews_eq] using this
  | simulated signal =>
    intro num _ p _
    exact simulated_ok p (chunks num signal) _
  | noise signal =>
    intro num hn p _
    exact noise_ok p hn signal _
  | @inplace c data g h ih =>
    intro num hn p hs
    have h1 := ((ih num hn (0 :: p) hs.1).weaken (own' := True) (fun _ => hs.2) id (pathCells_child 0 p) (F' := ∅) (by simp))
    have := (inplace_ok g h1 fun _ => rfl).weaken (own' := Owned c num) (fun _ => trivial) id (le_refl _) (F' := ∅) (by simp)
    rw [chunks_map] at this
    simpa only [HObj.deeds, Owned, Keeps] using this
  | @rowwise c data g h ih =>
    intro num hn p hs
    have := ih (num * 1) (by omega) (0 :: p) hs
    obtain ⟨h1, h2⟩ := fresh_trace (fun seen => seen.map (List.map g)) (fun bs k => by rw [List.map_take]) hn data (data.map g) (by simp)
      (chunks_map num g data)
    have e : (fun seen : List (List V) => (seen.map (List.map g)).getLastD []) = fun seen => (seen.getLastD []).map g := by
      funext seen
      rw [List.getLastD_eq_getLast?, List.getLastD_eq_getLast?, List.getLast?_map]
      cases seen.getLast? <;> simp
    rw [e] at h2
    rw [← h2]
    rw [Nat.mul_one] at this
    have := fresh_ok p id (fun seen => (seen.getLastD []).map g) (fun k hk => by rw [← h1 k hk]; exact congrArg List.length (congrFun e _).symm) this
    simpa [HObj.deeds, HObj.rowwise, Owned, Keeps] using this
  | @filter c data sos y h hy ih =>
    intro num hn p hs
    have := ih (num * 1) (by omega) (0 :: p) hs
    obtain ⟨out, e1, e2⟩ := C10_filter sos data num hn _ (isBlocking_chunks hn data) y hy
    obtain ⟨h1, h2⟩ := fresh_trace (fun seen => (Filter.result sos (fun _ => sos) seen).blocks) (fun bs k => take_filter_loop _ bs 0 k _) hn data
      ((List.range data.length).map y) (by simp) (by rw [e1]; exact (isBlocking_iff hn).1 e2)
    rw [← h2]
    rw [Nat.mul_one] at this
    have := fresh_ok p id (fun seen => (Filter.result sos (fun _ => sos) seen).blocks.getLastD []) h1 this
    simpa [HObj.deeds, HObj.filter, Owned, Keeps] using this
  | @average c data nav h hnav ih =>
    intro num hn p hs
    have hnn : 0 < num * nav := Nat.mul_pos hn hnav
    have := ih (num * nav) hnn (0 :: p) hs
    have e := (isBlocking_iff hn).1 (C03_average (K := K) data _ num nav hn hnav (isBlocking_chunks hnn data))
    rw [← e]
    have := fresh_ok p (· / nav) (fun seen => let temp := seen.getLastD []; (reshapeGroups (temp.length / nav) nav temp).map (rowMean K)) (fun k hk => by
      have : ((chunks (num * nav) data).take (k + 1)).getLastD [] = (chunks (num * nav) data)[k] := by
        rw [List.getLastD_eq_getLast?, List.getLast?_take]; simp [hk]
      simp only [this, reshapeGroups, List.length_map, List.length_range]) this
    have e2 : freshVals (fun seen => let temp := seen.getLastD []; (reshapeGroups (temp.length / nav) nav temp).map (rowMean K)) []
        (chunks (num * nav) data) = Average.result K nav (chunks (num * nav) data) := by
      generalize chunks (num * nav) data = bs
      have : ∀ hist : List (List V), freshVals (fun seen => let temp := seen.getLastD []; (reshapeGroups (temp.length / nav) nav temp).map (rowMean K)) hist
          bs = Average.result K nav bs := by
        induction bs with
        | nil => intro hist; rfl
        | cons b bs ih =>
          intro hist
          rw [freshVals, ih]
          conv_rhs => rw [Average.result, List.filterMap_cons]
          simp only [List.getLastD_concat, List.length_map, reshapeGroups, List.length_range]
          by_cases h0 : b.length / nav > 0
          · rw [if_pos h0, if_pos h0]; rfl
          · rw [if_neg h0, if_neg h0]; rfl
      exact this []
    rw [e2] at this
    simpa [HObj.deeds, HObj.average, Owned, Keeps] using this
  | @cumAverage c data h ih =>
    intro num hn p hs
    have := ih num hn (0 :: p) hs
    have e := (isBlocking_iff hn).1 (C09_time_cum_average (K := K) data _ num hn (isBlocking_chunks hn data)).2
    have hne : ∀ b ∈ chunks num data, b ≠ [] := fun b hb => List.length_pos_iff.1 (mem_chunks_length hn hb).1
    rw [← e, TimeCumAverage.result, ← runVals_eq K _ _ _ hne]
    have := running_ok p 0 (fun count accu temp => (List.range temp.length).map fun j =>
      ((count + 1 + j : Nat) : K)⁻¹ • (((count : Nat) : K) • accu + ((cumsum temp)[j]?).getD 0)) (fun c x b => by simp) hne this
    simpa [HObj.deeds, HObj.cumAverage, Owned, Keeps] using this
  | @pass c data h ih =>
    intro num hn p hs
    exact (ih num hn (0 :: p) hs).weaken id id (pathCells_child 0 p) (by simp)
  | @cacheFull c data stored h hst ih =>
    intro num hn p _
    have e := (isBlocking_iff hn).1 (hst num hn)
    have := stored_ok (own := True) (keep := True) p (SameData m) ((supp_same m).mono Set.subset_union_right) (rest := []) (os := [])
      (fun F _ => .nil) (stored num) 0 ∅ (by simp)
    rw [← e]
    simpa [HObj.deeds, Owned, Keeps] using this
  | @cachePart c data k h ih =>
    intro num hn p hs
    replace hs : Safe c num := by simpa [Safe] using hs
    have h1 := ih num hn (0 :: p) hs
    have h2 := stored_ok (own := Owned c num) (keep := Keeps c num) p (SameData m) ((supp_same m).mono Set.subset_union_right)
      (fun F hF => skip_ok (pathCells_child 0 p) h1 ((chunks num data).take (k num)).length F (by
        rintro x ⟨hx, hx'⟩
        exact (Set.disjoint_left.1 (node_disjoint 0 p) (hF hx) hx').elim)) ((chunks num data).take (k num)) 0 ∅ (by simp)
    have e : (chunks num data).take (k num) ++ (chunks num data).drop ((chunks num data).take (k num)).length = chunks num data := by
      rw [List.length_take]
      rcases Nat.le_total (k num) (chunks num data).length with hk | hk
      · rw [Nat.min_eq_left hk, List.take_append_drop]
      · rw [Nat.min_eq_right hk, List.take_of_length_le hk, List.drop_length, List.append_nil]
    rw [e] at h2
    simpa [HObj.deeds, Owned, Keeps] using h2
  | @mask c data start stop ch h hss ht ih =>
    intro num hn p hs
    have h1 := ih num hn (0 :: p) hs
    have hsel : ∀ rows : List V, selectRows ch rows = rows.map (ch.getD id) := by
      intro rows; cases ch <;> simp [selectRows]
    have hmap : (chunks num data).map (selectRows ch) = chunks num (data.map (ch.getD id)) := by
      rw [← chunks_map]
      exact List.map_congr_left fun b _ => hsel b
    have hge : ¬ start ≥ stop := by omega
    by_cases hw : start ≠ 0 ∨ stop ≠ data.length
    · have e := maskLoop_head hn start stop hss (data.map (ch.getD id)) 0 (by omega) (by rw [List.length_map]; omega) (by simp) rfl
      rw [Nat.sub_zero, Nat.sub_zero, ← List.map_take, ← List.map_drop, ← hmap] at e
      have := mask_ok (own := oneBlock start stop num → Owned c num ∨ ch.isSome) (keep := oneBlock start stop num) p start stop num _ hn hss ch data ht
        (by rw [e]) (fun a b => b a) (fun a => a) h1
      rw [e] at this
      simpa only [HObj.deeds, Owned, Keeps, if_neg hge, if_pos hw] using this
    · obtain ⟨h0, h2⟩ : start = 0 ∧ stop = data.length := by omega
      simp only [HObj.deeds, Owned, Keeps, if_neg hge, if_neg hw]
      subst h0 h2
      rw [List.take_length, List.drop_zero]
      cases ch with
      | none =>
        rw [bind_whole]
        simpa using h1.weaken id id (pathCells_child 0 p) (by simp)
      | some g =>
        have := whole_ok p g h1
        rw [chunks_map] at this
        simpa using this
  | @zeroPhase c data ff h hl ih =>
    intro num hn p hs
    have := zeroPhase_ok p hn ff data hl (flatten_chunks hn data) (ih num hn (0 :: p) hs)
    simpa [HObj.deeds, Owned, Keeps] using this
  | @reverse c data h hd ih =>
    intro num hn p hs
    have h1 := (ih num hn (0 :: p) hs.1).weaken (own' := False) (keep' := True) (F' := ∅) (fun h => h.elim) (fun _ => hs.2) (le_refl _) (by simp)
    have e := C08_time_reverse data _ num hn (isBlocking_chunks hn data) hd (List.replicate ((chunks num data).headD []).length (0 : V)) (by simp)
    have := reverse_ok p _ e.1 h1
    rw [(isBlocking_iff hn).1 e.2] at this
    simpa only [HObj.deeds, Owned, Keeps] using this
  | @mixer c d data other h h' hl ih ih' =>
    intro num hn p hs
    obtain ⟨hs1, hs2, ho⟩ := hs
    have h1 := (ih num hn (0 :: p) hs1).weaken (own' := True) (keep' := Keeps c num) (F' := ∅) (fun _ => ho) id (le_refl _) (by simp)
    have h2 := ih' num hn (1 :: p) hs2
    have := mixer_ok (W := pathCells p) (pathCells_child 0 p) (pathCells_child 1 p) (branch_disjoint p (by simp)) (branch_disjoint p (by simp)) h1 ∅ (SameData m)
      _ _ ((supp_same m).mono Set.subset_union_right) (by simp) (by simp) h2 (by simp [chunks, hl, Function.comp_def])
    have e : List.zipWith (List.zipWith (· + ·)) (chunks num data) (chunks num other) = chunks num (List.zipWith (· + ·) data other) := by
      refine List.ext_getElem (by simp [chunks, hl]) fun k h1 h2 => ?_
      simp [chunks, List.take_zipWith, List.drop_zipWith]
    rw [e] at this
    have := this.pre (P' := SameData m) fun m hm => ⟨hm, hm⟩
    simpa only [HObj.deeds, Owned, Keeps] using this

section
variable {K : Type} [Field K] [CharZero K] [AddCommGroup V] [Module K V] {m : Memory V} {obj : HObj V} {data : List V}

/-- **C152** A chain in which the blocks are shared arrays delivers the signal it stands for, for every block size, and leaves the recorded data as
they are - provided that `TimeReverse` is connected to objects only that do not overwrite their blocks, and `Mixer` (first source) to objects only
whose blocks may be overwritten.  Missing: without these conditions the property fails, see below. -/
theorem C152_chain_partial (h : Carries K m obj data) (num : ℕ) (hn : 0 < num) (hs : Safe obj num) :
    IsBlocking num data (seenAtOnce m (obj.deeds [] num)) ∧ SameData m (afterDeeds m (obj.deeds [] num)) := by
  have hok := chain_ok h num hn [] hs
  refine ⟨?_, fun a => ?_⟩
  · rw [seenAtOnce, hok.seen _ (by simp) 0 m fun _ => rfl]
    exact isBlocking_chunks hn data
  · funext i
    exact hok.kept m (.data a, i) (.inl fun hc => Set.disjoint_left.1 (path_data []) hc ⟨a, rfl⟩)

/-- **C152** (again) After a run of one such chain any other (or the same) on the same recorded data delivers its signal as if the first one had not
run, with any block size.  Missing: as above. -/
theorem C152_again_partial (h : Carries K m obj data) (num : ℕ) (hn : 0 < num) (hs : Safe obj num) {obj' : HObj V} {data' : List V}
    (h' : Carries K m obj' data') (num' : ℕ) (hn' : 0 < num') (hs' : Safe obj' num') :
    IsBlocking num' data' (seenAtOnce (afterDeeds m (obj.deeds [] num)) (obj'.deeds [] num')) := by
  rw [seenAtOnce, (chain_ok h' num' hn' [] hs').seen _ (by simp) 0 _ (C152_chain_partial h num hn hs).2]
  exact isBlocking_chunks hn' data'

/-- **C152** (overwriting) A consumer may write what it likes into the blocks of an object that does not look at them later.  Missing: for other
objects the property fails, see below. -/
theorem C152_overwrite_partial (h : Carries K m obj data) (num : ℕ) (hn : 0 < num) (hs : Safe obj num) (ho : Owned obj num)
    (env : ℕ → View → Memory V → Memory V)
    (he : ∀ k r m' a i, ¬ (a = r.arr ∧ r.off ≤ i ∧ i < r.off + r.len) → env k r m' a i = m' a i) :
    IsBlocking num data (seenWith env 0 m (obj.deeds [] num)) := by
  rw [(chain_ok h num hn [] hs).seen env (fun k r m' c _ hc => he k r m' c.1 c.2 fun hx => hc ⟨ho, hx⟩) 0 m fun _ => rfl]
  exact isBlocking_chunks hn data

/-- **C152** (keeping) A consumer may keep the blocks of an object that does not overwrite them and look at them in the end.  Missing: for other objects
the property fails, see below. -/
theorem C152_keep_partial (h : Carries K m obj data) (num : ℕ) (hn : 0 < num) (hs : Safe obj num) (hk : Keeps obj num) :
    IsBlocking num data (seenInTheEnd m (obj.deeds [] num)) := by
  rw [(chain_ok h num hn [] hs).late hk m fun _ => rfl]
  exact isBlocking_chunks hn data

/-- **C152** (`SourceMixer`) `SourceMixer` delivers the weighted sum and leaves the recorded data as they are, for all sources and weights, if the
blocks of the first source may be overwritten - this holds for all simulated sources.  Missing: for other objects the property fails, see below. -/
theorem C152_source_mixer_partial {c d : HObj V} {other : List V} (w v : V → V) (h : Carries K m c data) (h' : Carries K m d other)
    (hl : other.length = data.length) (num : ℕ) (hn : 0 < num) (hs : Safe c num) (hs' : Safe d num) (ho : Owned c num) :
    IsBlocking num (List.zipWith (fun a b => w a + v b) data other) (seenAtOnce m ((HObj.sourceMixer w v c d).deeds [] num)) ∧
      SameData m (afterDeeds m ((HObj.sourceMixer w v c d).deeds [] num)) := by
  have hm := Carries.mixer (.inplace w h) (.rowwise v h') (by simpa using hl)
  have := C152_chain_partial hm num hn ⟨⟨hs, ho⟩, by simpa [HObj.rowwise, Safe] using hs', ho⟩
  rwa [List.zipWith_map] at this

end

/-! ### What goes wrong otherwise -/

/-- Recorded data 1, 2, 3, ... in every array. -/
private def counting : Memory ℚ := fun a i => match a with | .data _ => (i : ℚ) + 1 | .own .. => 0

/-- **C152** (violated) Time reversal of a selection of samples: `MaskedTimeOut` overwrites the blocks that `TimeReverse` keeps. -/
theorem C152_reverse_violated : ∃ (m : Memory ℚ) (c : HObj ℚ) (data : List ℚ), Carries ℚ m c data ∧ Safe c 2 ∧ Carries ℚ m (.reverse c) data.reverse ∧
    ¬ IsBlocking 2 data.reverse (seenAtOnce m ((HObj.reverse c).deeds [] 2)) := by
  have h := Carries.mask (K := ℚ) (start := 1) (stop := 5) none (Carries.samples (m := counting) 0 6 (by decide)) (by decide) (by simp)
  refine ⟨counting, _, _, h, trivial, .reverse h (by decide +kernel), ?_⟩
  rw [isBlocking_iff (by decide)]
  decide +kernel

/-- **C152** (violated) A mixer behind a cumulative average: the average goes on from the last row of the block it handed out, and `Mixer` adds to
that block. -/
theorem C152_mixer_violated : ∃ (m : Memory ℚ) (c d : HObj ℚ) (data other : List ℚ), Carries ℚ m c data ∧ Carries ℚ m d other ∧ Safe c 2 ∧ Safe d 2 ∧
    Carries ℚ m (.mixer c d) (List.zipWith (· + ·) data other) ∧
    ¬ IsBlocking 2 (List.zipWith (· + ·) data other) (seenAtOnce m ((HObj.mixer c d).deeds [] 2)) := by
  have h := Carries.cumAverage (K := ℚ) (Carries.samples (m := counting) 0 4 (by decide))
  have h' := Carries.samples (K := ℚ) (m := counting) 1 4 (by decide)
  refine ⟨counting, _, _, _, _, h, h', trivial, trivial, .mixer h h' (by simp [cumulativeAverages]), ?_⟩
  rw [isBlocking_iff (by decide)]
  decide +kernel

/-- **C152** (violated) The sum of a recording and its time reversal: `Mixer` adds to the recorded data while `TimeReverse` still reads them, and
the recorded data are changed. -/
theorem C152_mixer_reverse_violated : ∃ (m : Memory ℚ) (c : HObj ℚ) (data : List ℚ), Carries ℚ m c data ∧ Safe (.reverse c) 2 ∧
    Carries ℚ m (.mixer c (.reverse c)) (List.zipWith (· + ·) data data.reverse) ∧
    ¬ IsBlocking 2 (List.zipWith (· + ·) data data.reverse) (seenAtOnce m ((HObj.mixer c (.reverse c)).deeds [] 2)) ∧
    ¬ SameData m (afterDeeds m ((HObj.mixer c (.reverse c)).deeds [] 2)) := by
  have h := Carries.samples (K := ℚ) (m := counting) 0 4 (by decide)
  refine ⟨counting, _, _, h, ⟨trivial, trivial⟩, .mixer h (.reverse h (by decide +kernel)) (by simp), ?_, fun hs => ?_⟩
  · rw [isBlocking_iff (by decide)]
    decide +kernel
  · have := congrFun (hs 0) 0
    revert this
    decide +kernel

/-- **C152** (violated) Whether a mixer changes the recorded data depends on the block size, if a selection of samples is between them. -/
theorem C152_mask_violated : ∃ (m : Memory ℚ) (obj : HObj ℚ) (data : List ℚ), Carries ℚ m obj data ∧
    SameData m (afterDeeds m (obj.deeds [] 1)) ∧ ¬ SameData m (afterDeeds m (obj.deeds [] 4)) := by
  have h := Carries.mask (K := ℚ) (start := 1) (stop := 2) none (Carries.samples (m := counting) 0 4 (by decide)) (by decide) (by simp)
  have h' := Carries.samples (K := ℚ) (m := counting) 1 1 (by decide)
  have hm := Carries.mixer h h' (by simp)
  refine ⟨counting, _, _, hm, (C152_chain_partial hm 1 (by decide) ⟨trivial, trivial, ?_⟩).2, fun hs => ?_⟩
  · simp only [Owned, List.length_map, List.length_range]
    rw [if_pos (by decide)]
    intro hx
    exact absurd hx (by unfold oneBlock; decide)
  · have := congrFun (hs 0) 1
    revert this
    decide +kernel

/-- **C152** (violated) A consumer that changes the blocks it receives makes the following blocks of a cumulative average wrong. -/
theorem C152_overwrite_violated : ∃ (m : Memory ℚ) (c : HObj ℚ) (data : List ℚ) (env : ℕ → View → Memory ℚ → Memory ℚ), Carries ℚ m c data ∧ Safe c 2 ∧
    (∀ k r m' a i, ¬ (a = r.arr ∧ r.off ≤ i ∧ i < r.off + r.len) → env k r m' a i = m' a i) ∧
    ¬ IsBlocking 2 data (seenWith env 0 m (c.deeds [] 2)) := by
  have h := Carries.cumAverage (K := ℚ) (Carries.samples (m := counting) 0 4 (by decide))
  refine ⟨counting, _, _, fun _ r m' => m'.write r ((m'.read r).map (2 * ·)), h, trivial, fun k r m' a i hc => ?_, ?_⟩
  · exact write_of_not_mem m' r _ (c := (a, i)) hc
  · rw [isBlocking_iff (by decide)]
    decide +kernel

/-- **C152** (violated) Blocks of a selection of samples that are kept are overwritten. -/
theorem C152_keep_violated : ∃ (m : Memory ℚ) (c : HObj ℚ) (data : List ℚ), Carries ℚ m c data ∧ Safe c 2 ∧
    ¬ IsBlocking 2 data (seenInTheEnd m (c.deeds [] 2)) := by
  have h := Carries.mask (K := ℚ) (start := 1) (stop := 5) none (Carries.samples (m := counting) 0 6 (by decide)) (by decide) (by simp)
  refine ⟨counting, _, _, h, trivial, ?_⟩
  rw [isBlocking_iff (by decide)]
  decide +kernel

/-- **C152** (violated) Time reversal of a simulated source (block size less than the number of samples): `PointSource` fills its array again and
again, `TimeReverse` keeps references to it and delivers the last block over and over. -/
theorem C152_simulated_violated : ∃ (m : Memory ℚ) (c : HObj ℚ) (data : List ℚ), Carries ℚ m c data ∧ Safe c 2 ∧ Carries ℚ m (.reverse c) data.reverse ∧
    seenAtOnce m ((HObj.reverse c).deeds [] 2) = [[4, 3], [4, 3]] ∧
    ¬ IsBlocking 2 data.reverse (seenAtOnce m ((HObj.reverse c).deeds [] 2)) := by
  have h := Carries.simulated (K := ℚ) (m := counting) [1, 2, 3, 4]
  refine ⟨counting, _, _, h, trivial, .reverse h (by decide +kernel), by decide +kernel, ?_⟩
  rw [isBlocking_iff (by decide)]
  decide +kernel

/-- **C152** (violated) `SourceMixer` with recorded data as first source multiplies the recording itself: a second run gives something else. -/
theorem C152_source_mixer_violated : ∃ (m : Memory ℚ) (c d : HObj ℚ) (data other : List ℚ) (w v : ℚ → ℚ), Carries ℚ m c data ∧ Carries ℚ m d other ∧
    Safe c 2 ∧ Safe d 2 ∧ IsBlocking 2 (List.zipWith (fun a b => w a + v b) data other) (seenAtOnce m ((HObj.sourceMixer w v c d).deeds [] 2)) ∧
    ¬ IsBlocking 2 (List.zipWith (fun a b => w a + v b) data other)
      (seenAtOnce (afterDeeds m ((HObj.sourceMixer w v c d).deeds [] 2)) ((HObj.sourceMixer w v c d).deeds [] 2)) := by
  have h := Carries.samples (K := ℚ) (m := counting) 0 3 (by decide)
  have h' := Carries.simulated (K := ℚ) (m := counting) [5, 6, 7]
  refine ⟨counting, _, _, _, _, (2 * ·), (3 * ·), h, h', trivial, trivial, ?_, ?_⟩ <;> rw [isBlocking_iff (by decide)] <;> decide +kernel

/-! ### The hypotheses are met -/

/-- Two simulated sources, weighted. -/
example : ∃ (c d : HObj ℚ) (data other : List ℚ), Carries ℚ counting c data ∧ Carries ℚ counting d other ∧ other.length = data.length ∧ Safe c 2 ∧
    Safe d 2 ∧ Owned c 2 ∧ seenAtOnce counting ((HObj.sourceMixer (2 * ·) (3 * ·) c d).deeds [] 2) = [[14, 19], [24, 29], [34]] :=
  ⟨.simulated [1, 2, 3, 4, 5], .noise [4, 5, 6, 7, 8], _, _, .simulated _, .noise _, rfl, trivial, trivial, trivial, by decide +kernel⟩

/-- A calibrated recording plus the reversed one, averaged: the signal, the conditions, and what is seen. -/
example : ∃ (obj : HObj ℚ) (data : List ℚ), Carries ℚ counting obj data ∧ Safe obj 1 ∧ Owned obj 1 ∧ Keeps obj 1 ∧ data ≠ [] ∧
    seenAtOnce counting (obj.deeds [] 1) = chunks 1 data := by
  have h := Carries.samples (K := ℚ) (m := counting) 0 5 (by decide)
  have h1 := Carries.average (nav := 2) (.mixer (.rowwise (3 * ·) h) (.reverse h (by decide +kernel)) (by simp)) (by decide)
  have hs : Safe (V := ℚ) (HObj.average ℚ 2 (.mixer (.rowwise (3 * ·) (.samples 0 5)) (.reverse (.samples 0 5)))) 1 :=
    ⟨trivial, ⟨trivial, trivial⟩, trivial⟩
  exact ⟨_, _, h1, hs, trivial, trivial, by decide +kernel, (isBlocking_iff (by decide)).1 (C152_chain_partial h1 1 (by decide) hs).1⟩

/-- A selection of samples mixed with a filtered recording, twice. -/
example : ∃ (obj : HObj ℚ) (data : List ℚ), Carries ℚ counting obj data ∧ Safe obj 2 ∧ data.length = 4 ∧
    IsBlocking 2 data (seenAtOnce (afterDeeds counting (obj.deeds [] 2)) (obj.deeds [] 2)) := by
  have h := Carries.mask (K := ℚ) (start := 1) (stop := 5) none (Carries.samples (m := counting) 0 6 (by decide)) (by decide) (by simp)
  obtain ⟨y, hy⟩ := exists_sos_response [(⟨1, 0, 0, -1, 0⟩ : Sos ℚ)] (signal ((List.range 4).map (counting (.data 0))))
  have h' := Carries.filter (Carries.samples (m := counting) 0 4 (by decide)) hy
  have hm := Carries.mixer h h' (by simp)
  have hs : Safe (V := ℚ) (HObj.mixer (.mask 1 5 ((List.range 6).map (counting (.data 0))).length none (.samples 0 6))
      (.filter [(⟨1, 0, 0, -1, 0⟩ : Sos ℚ)] (.samples 0 4))) 2 := by
    refine ⟨trivial, trivial, ?_⟩
    simp only [Owned, List.length_map, List.length_range]
    rw [if_pos (by decide)]
    intro hx
    exact absurd hx (by unfold oneBlock; decide)
  exact ⟨_, _, hm, hs, by simp, C152_again_partial hm 2 (by decide) hs hm 2 (by decide) hs⟩

end Acoular
