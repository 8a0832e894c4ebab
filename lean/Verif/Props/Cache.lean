import Verif.Model.Cache
import Verif.Lemmas.StreamModel

/-!
# Property theorems: `Cache` (C04, C05)
-/

namespace Acoular
open Spec

variable {α : Type _}

/-- What a cache file may contain: the stored rows are a prefix of the source data, and a node marked
complete holds all of them. -/
def CacheInv (data : List α) (f : CacheFile α) : Prop :=
  ∀ n, f = some (some n) → n.rows <+: data ∧ (n.complete = some true → n.rows = data)

private def Safe (data : List α) (acts : List (CacheAct α)) (f : CacheFile α) : Prop :=
  ∀ k, CacheInv data (applyActs (acts.take k) f)

private theorem safe_nil {data : List α} {f : CacheFile α} (h : CacheInv data f) : Safe data [] f := by
  intro k; simpa [applyActs] using h

private theorem safe_cons {data : List α} {f : CacheFile α} {a : CacheAct α} {as : List (CacheAct α)}
    (h : CacheInv data f) (h2 : Safe data as (a.apply f)) : Safe data (a :: as) f := by
  intro k
  cases k with
  | zero => simpa [applyActs] using h
  | succ k => exact h2 k

private theorem applyActs_append (as bs : List (CacheAct α)) (f : CacheFile α) :
    applyActs (as ++ bs) f = applyActs bs (applyActs as f) := by
  simp [applyActs, List.foldl_append]

private theorem safe_append {data : List α} {f : CacheFile α} {as bs : List (CacheAct α)}
    (h : Safe data as f) (h2 : Safe data bs (applyActs as f)) : Safe data (as ++ bs) f := by
  intro k
  rw [List.take_append, applyActs_append]
  by_cases hk : k ≤ as.length
  · rw [show k - as.length = 0 by omega]
    simpa [applyActs] using h k
  · rw [List.take_of_length_le (l := as) (by omega)]
    exact h2 _

private theorem safe_yields {data : List α} {f : CacheFile α} (bs : List (List α)) (h : CacheInv data f) :
    Safe data (bs.map .yld) f ∧ applyActs (bs.map .yld) f = f := by
  induction bs with
  | nil => exact ⟨safe_nil h, rfl⟩
  | cons b bs ih => exact ⟨safe_cons h ih.1, ih.2⟩

private theorem inv_none (data : List α) : CacheInv data (none : CacheFile α) := by
  intro n h; cases h

private theorem inv_someNone (data : List α) : CacheInv data (some none : CacheFile α) := by
  intro n h; cases h

private theorem inv_node {data rows : List α} {c : Option Bool} (h : rows <+: data) (hc : c ≠ some true) :
    CacheInv data (some (some ⟨rows, c⟩)) := by
  intro n hn
  cases hn
  exact ⟨h, fun h => absurd h hc⟩

private theorem prefix_of_append {a b c : List α} (h : a ++ b <+: c) : a <+: c :=
  (List.prefix_append a b).trans h

private theorem writeLoop_tail {data : List α} (skip : Nat) (blocks : List (List α)) :
    ∀ (j : Nat) (rows : List α) (c : Option Bool), 0 < j → c ≠ some true → rows ++ blocks.flatten <+: data →
      Safe data (writeLoop skip j blocks) (some (some ⟨rows, c⟩)) ∧
      applyActs (writeLoop skip j blocks) (some (some ⟨rows, c⟩)) = some (some ⟨rows ++ blocks.flatten, c⟩) := by
  induction blocks with
  | nil =>
    intro j rows c _ hc hp
    rw [List.flatten_nil, List.append_nil] at hp ⊢
    exact ⟨safe_nil (inv_node hp hc), rfl⟩
  | cons b bs ih =>
    intro j rows c hj hc hp
    rw [List.flatten_cons, ← List.append_assoc] at hp ⊢
    obtain ⟨i1, i2⟩ := ih (j + 1) (rows ++ b) c (by omega) hc hp
    have h0 : CacheInv data (some (some ⟨rows, c⟩)) := inv_node (prefix_of_append (prefix_of_append hp)) hc
    have h1 : CacheInv data (some (some ⟨rows ++ b, c⟩)) := inv_node (prefix_of_append hp) hc
    rw [writeLoop, if_neg (by omega)]
    by_cases hs : j ≥ skip
    · rw [if_pos hs]
      exact ⟨safe_cons h0 (safe_cons h1 i1), i2⟩
    · rw [if_neg hs]
      exact ⟨safe_cons h0 i1, i2⟩

private theorem writeLoop_head {data : List α} (skip : Nat) (blocks : List (List α)) (hb : blocks ≠ [])
    (hflat : blocks.flatten = data) (f : Option (CacheNode α)) (hf : CacheInv data (some f)) :
    Safe data (writeLoop skip 0 blocks ++ [.setComplete true]) (some f) := by
  match blocks, hb with
  | b :: bs, _ =>
    have hp : b ++ bs.flatten <+: data := by rw [← hflat]; simp
    obtain ⟨i1, i2⟩ := writeLoop_tail (data := data) skip bs 1 b (some false) (by omega) (by simp) hp
    have h1 : CacheInv data (some (some ⟨[], none⟩)) := inv_node (List.nil_prefix) (by simp)
    have h2 : CacheInv data (some (some ⟨[], some false⟩)) := inv_node (List.nil_prefix) (by simp)
    have h3 : CacheInv data (some (some ⟨b, some false⟩)) := inv_node (prefix_of_append hp) (by simp)
    have hlast : CacheInv data (some (some ⟨b ++ bs.flatten, some true⟩)) := by
      intro n hn; cases hn
      exact ⟨hp, fun _ => by rw [← hflat]; simp⟩
    have hmid : CacheInv data (some (some ⟨b ++ bs.flatten, some false⟩)) := inv_node hp (by simp)
    have htail : Safe data (writeLoop skip 1 bs ++ [.setComplete true]) (some (some ⟨b, some false⟩)) := by
      apply safe_append i1
      rw [i2]
      exact safe_cons hmid (safe_nil hlast)
    rw [writeLoop, if_pos rfl]
    by_cases hs : 0 ≥ skip
    · rw [if_pos hs]
      exact safe_cons hf (safe_cons h1 (safe_cons h2 (safe_cons h3 htail)))
    · rw [if_neg hs]
      exact safe_cons hf (safe_cons h1 (safe_cons h2 htail))

private theorem writeActs_safe {data : List α} (blocks : List (List α)) (hb : blocks ≠ [])
    (hflat : blocks.flatten = data) (f : Option (CacheNode α)) (hf : CacheInv data (some f)) :
    Safe data (writeActs blocks) (some f) := by
  rw [writeActs, if_neg hb]
  exact writeLoop_head 0 blocks hb hflat f hf

/-- Every prefix of every run keeps the invariant. -/
private theorem run_safe {data : List α} (mode : CacheMode) (num : Nat) (blocks : List (List α))
    (hb : blocks ≠ []) (hflat : blocks.flatten = data) (f : CacheFile α) (hf : CacheInv data f) :
    Safe data (Cache.result mode num blocks f) f := by
  have hread : ∀ node, Safe data (readActs node num) f := fun node => (safe_yields _ hf).1
  have hpass : Safe data (blocks.map .yld) f := (safe_yields _ hf).1
  have hinc : ∀ node, f = some (some node) → Safe data (incompleteActs node blocks num) f := by
    rintro node rfl
    unfold incompleteActs
    simp only
    rw [if_neg hb, List.append_assoc, List.append_assoc]
    apply safe_append (safe_yields _ hf).1
    rw [(safe_yields _ hf).2]
    exact safe_cons hf (writeLoop_head _ blocks hb hflat _ (inv_someNone data))
  cases mode <;> simp only [Cache.result]
  case none => exact hpass
  case readonly =>
    split
    · exact hpass
    · exact hpass
    · split
      · exact hread _
      · exact hpass
  case overwrite =>
    split
    · exact safe_cons hf (writeActs_safe blocks hb hflat _ (inv_someNone data))
    · exact writeActs_safe blocks hb hflat _ hf
    · exact safe_cons hf (writeActs_safe blocks hb hflat _ (inv_someNone data))
  all_goals
    split
    · exact safe_cons hf (writeActs_safe blocks hb hflat _ (inv_someNone data))
    · exact writeActs_safe blocks hb hflat _ hf
    · split
      · exact hread _
      · exact hinc _ rfl

private theorem history_inv {data : List α} (source : Nat → List (List α)) (hd : data ≠ [])
    (hsrc : ∀ num, 0 < num → IsBlocking num data (source num)) (h : List CacheRun)
    (hnum : ∀ r ∈ h, 0 < r.num) (f : CacheFile α) (hf : CacheInv data f) :
    CacheInv data (cacheHistory source h f) := by
  induction h generalizing f with
  | nil => exact hf
  | cons r rs ih =>
    have hn := hnum r (by simp)
    have hflat := (hsrc r.num hn).cover
    apply ih (fun r hr => hnum r (by simp [hr]))
    exact run_safe r.mode r.num _ (by intro e; rw [e] at hflat; exact hd hflat.symm) hflat f hf r.steps

private theorem yields_append (as bs : List (CacheAct α)) : yields (as ++ bs) = yields as ++ yields bs := by
  simp [yields]

private theorem yields_yld (bs : List (List α)) : yields (bs.map .yld) = bs := by
  induction bs with
  | nil => rfl
  | cons b bs ih => simp only [yields, List.map_cons, List.filterMap_cons] at ih ⊢; rw [ih]

private theorem yields_writeLoop (skip : Nat) (blocks : List (List α)) :
    ∀ j, yields (writeLoop skip j blocks) = blocks.drop (skip - j) := by
  induction blocks with
  | nil => intro j; simp [writeLoop, yields]
  | cons b bs ih =>
    intro j
    rw [writeLoop, yields_append, yields_append, yields_append, ih]
    have h1 : yields (if j = 0 then [.create, .setComplete false] else [] : List (CacheAct α)) = [] := by
      split <;> rfl
    rw [h1]
    by_cases hs : j ≥ skip
    · rw [if_pos hs, show skip - j = 0 by omega, show skip - (j + 1) = 0 by omega]
      rfl
    · rw [if_neg hs, show skip - j = skip - (j + 1) + 1 by omega]
      rfl

private theorem failure_append (as bs : List (CacheAct α)) (h : failure as = none) (h2 : failure bs = none) :
    failure (as ++ bs) = none := by
  unfold failure at *
  rw [List.findSome?_append, h, h2]; rfl

private theorem failure_yld (bs : List (List α)) : failure (bs.map .yld) = none := by
  induction bs with
  | nil => rfl
  | cons b bs ih => simp only [failure, List.map_cons, List.findSome?_cons] at ih ⊢; exact ih

private theorem failure_writeLoop (skip : Nat) (blocks : List (List α)) :
    ∀ j, failure (writeLoop skip j blocks) = none := by
  induction blocks with
  | nil => intro j; rfl
  | cons b bs ih =>
    intro j
    rw [writeLoop]
    refine failure_append _ _ (failure_append _ _ (failure_append _ _ ?_ rfl) ?_) (ih _)
    · split <;> rfl
    · split <;> rfl

private theorem fullBlocks_eq {num : Nat} (hn : 0 < num) (data rows : List α) (hp : rows <+: data) :
    fullBlocks rows num = (chunks num data).take (rows.length / num) := by
  have hlen : rows.length ≤ data.length := hp.length_le
  apply List.ext_getElem
  · rw [fullBlocks, List.length_map, List.length_range, List.length_take, length_chunks]
    have h1 : rows.length / num ≤ data.length / num := Nat.div_le_div_right hlen
    have h2 : data.length / num ≤ (data.length + num - 1) / num := Nat.div_le_div_right (by omega)
    omega
  · intro k h1 h2
    rw [fullBlocks, List.length_map, List.length_range] at h1
    have h3 : (k + 1) * num ≤ rows.length := by
      have h4 : (k + 1) * num ≤ rows.length / num * num := Nat.mul_le_mul_right num h1
      have := Nat.div_mul_le_self rows.length num
      omega
    rw [Nat.add_mul, Nat.one_mul] at h3
    simp only [fullBlocks, List.getElem_map, List.getElem_range, List.getElem_take, chunks, slice]
    rw [List.prefix_iff_eq_take] at hp
    rw [hp, List.take_take, Nat.min_eq_left h3, List.drop_take]
    congr 1
    omega

private theorem yields_run {data : List α} (mode : CacheMode) {num : Nat} (hn : 0 < num) (hd : data ≠ [])
    (f : CacheFile α) (hf : CacheInv data f) :
    yields (Cache.result mode num (chunks num data) f) = chunks num data ∧
    failure (Cache.result mode num (chunks num data) f) = none := by
  have hne : chunks num data ≠ [] := fun h => hd ((chunks_eq_nil hn).1 h)
  have hpass := And.intro (yields_yld (chunks num data)) (failure_yld (chunks num data))
  have hwrite : yields (writeActs (chunks num data)) = chunks num data ∧ failure (writeActs (chunks num data)) = none := by
    rw [writeActs, if_neg hne]
    refine ⟨?_, failure_append _ _ (failure_writeLoop ..) rfl⟩
    rw [yields_append, yields_writeLoop]
    simp [yields]
  have hread : ∀ node : CacheNode α, f = some (some node) → node.complete = some true →
      yields (readActs node num) = chunks num data ∧ failure (readActs node num) = none := by
    rintro node rfl hc
    have hr := (hf node rfl).2 hc
    unfold readActs
    rw [hr, blockLoop_eq data hn _ _ (by omega), List.drop_zero]
    exact hpass
  have hinc : ∀ node : CacheNode α, f = some (some node) →
      yields (incompleteActs node (chunks num data) num) = chunks num data ∧
      failure (incompleteActs node (chunks num data) num) = none := by
    rintro node rfl
    have hp := (hf node rfl).1
    unfold incompleteActs
    simp only
    rw [if_neg hne]
    refine ⟨?_, failure_append _ _ (failure_append _ _ (failure_append _ _ (failure_yld _) rfl)
      (failure_writeLoop ..)) rfl⟩
    rw [yields_append, yields_append, yields_append, yields_yld, yields_writeLoop, Nat.sub_zero,
      fullBlocks_eq hn data _ hp]
    simp only [yields, List.filterMap_cons, List.filterMap_nil, List.append_nil]
    have hl : ((chunks num data).take (node.rows.length / num)).length = node.rows.length / num := by
      rw [← fullBlocks_eq hn data _ hp, fullBlocks, List.length_map, List.length_range]
    rw [hl, List.take_append_drop]
  cases mode <;> simp only [Cache.result]
  case none => exact hpass
  case readonly =>
    split
    · exact hpass
    · exact hpass
    · split
      · next h => exact hread _ rfl h
      · exact hpass
  case overwrite =>
    split
    · exact hwrite
    · exact hwrite
    · exact hwrite
  all_goals
    split
    · exact hwrite
    · exact hwrite
    · split
      · next h => exact hread _ rfl h
      · exact hinc _ rfl

/-- **C04** Let `source num` be the block sequence of a non-empty source with content `data`.  After any
history of runs (any modes, any block sizes, each run stopped after any number of file operations and
yields) starting without a cache file, a further run in any mode with any block size consumed to the end
raises nothing and delivers exactly the source data in blocks of `num`, and a run stopped anywhere has
delivered the first blocks of it. -/
theorem C04_cache_transparent (data : List α) (hd : data ≠ []) (source : Nat → List (List α))
    (hsrc : ∀ num, 0 < num → IsBlocking num data (source num)) (history : List CacheRun)
    (hnum : ∀ r ∈ history, 0 < r.num) (mode : CacheMode) (num : Nat) (hn : 0 < num) :
    let run := Cache.result mode num (source num) (cacheHistory source history none)
    failure run = none ∧ IsBlocking num data (yields run) ∧
      ∀ k, yields (run.take k) <+: yields run := by
  intro run
  have hinv := history_inv source hd hsrc history hnum none (inv_none data)
  have hs := (isBlocking_iff hn).1 (hsrc num hn)
  have h := yields_run mode hn hd _ hinv
  have hrun : run = Cache.result mode num (chunks num data) (cacheHistory source history none) := by
    show Cache.result mode num (source num) _ = _
    rw [hs]
  rw [hrun]
  refine ⟨h.2, ?_, ?_⟩
  · rw [h.1]; exact isBlocking_chunks hn data
  · intro k
    exact (List.take_prefix k _).filterMap _

/-- One run with a file that may be there: it raises nothing and delivers the source data, and wherever it is stopped the
file is again one that may be there. -/
theorem C04_one_run (data : List α) (hd : data ≠ []) (mode : CacheMode) (num : Nat) (hn : 0 < num) (blocks : List (List α))
    (hb : IsBlocking num data blocks) (f : CacheFile α) (hf : CacheInv data f) :
    failure (Cache.result mode num blocks f) = none ∧ IsBlocking num data (yields (Cache.result mode num blocks f)) ∧
      ∀ k, CacheInv data (applyActs ((Cache.result mode num blocks f).take k) f) := by
  have hs := (isBlocking_iff hn).1 hb
  have hne : blocks ≠ [] := fun e => hd (by rw [← hb.cover, e]; rfl)
  have h3 := run_safe mode num blocks hne hb.cover f hf
  subst hs
  have h := yields_run mode hn hd f hf
  exact ⟨h.2, by rw [h.1]; exact hb, h3⟩

/-- The hypotheses of `C04_one_run` are met: -/
example := C04_one_run [1, 2, 3, 4, 5] (by decide) .individual 2 (by decide) (chunks 2 _) (isBlocking_chunks (by decide) _) (some (some ⟨[1, 2, 3], some false⟩))
  (by intro n h; cases h; exact ⟨by decide, by simp⟩)

/-- **C04** a source that delivers no block at all cannot be cached: the run ends with an exception
(`UnboundLocalError`), although the source itself ends normally. -/
theorem C04_cache_empty_source_violated (num : Nat) :
    failure (Cache.result CacheMode.individual num ([] : List (List Nat)) none) = some .unboundLocalError ∧
    failure (Cache.result CacheMode.none num ([] : List (List Nat)) none) = none := by
  constructor <;> rfl

/-- **C05** runs in the modes `none` and `readonly` leave the cache file unchanged, wherever they stop. -/
theorem C05_cache_untouched (mode : CacheMode) (h : mode = .none ∨ mode = .readonly) (num : Nat)
    (blocks : List (List α)) (f : CacheFile α) (k : Nat) :
    applyActs ((Cache.result mode num blocks f).take k) f = f := by
  have hy : ∀ (bs : List (List α)) (k : Nat), applyActs ((bs.map CacheAct.yld).take k) f = f := by
    intro bs
    induction bs with
    | nil => intro k; simp [applyActs]
    | cons b bs ih =>
      intro k
      cases k with
      | zero => rfl
      | succ k => exact ih k
  rcases h with rfl | rfl
  · exact hy _ _
  · simp only [Cache.result]
    split
    · exact hy _ _
    · exact hy _ _
    · split
      · exact hy _ _
      · exact hy _ _

/-- The hypotheses of `C05_cache_untouched` are met: -/
example := C05_cache_untouched .readonly (Or.inr rfl) 2 [[1, 2], [3]] (some (some ⟨[1, 2, 3], some true⟩)) 1

/-- **C05** in every state of the file reachable by runs stopped anywhere, a node marked complete holds
exactly the source data, and any other node holds a prefix of it. -/
theorem C05_complete_means_complete (data : List α) (hd : data ≠ []) (source : Nat → List (List α))
    (hsrc : ∀ num, 0 < num → IsBlocking num data (source num)) (history : List CacheRun)
    (hnum : ∀ r ∈ history, 0 < r.num) (node : CacheNode α)
    (hnode : cacheHistory source history none = some (some node)) :
    node.rows <+: data ∧ (node.complete = some true → node.rows = data) :=
  history_inv source hd hsrc history hnum none (inv_none data) node hnode

/-- The hypotheses of `C05_complete_means_complete` are met: -/
example := C05_complete_means_complete [1, 2, 3, 4, 5] (by decide) (fun num => chunks num [1, 2, 3, 4, 5])
  (fun _ h => isBlocking_chunks h _) [⟨.individual, 2, 5⟩, ⟨.readonly, 2, 100⟩] (by decide) ⟨[1, 2], some false⟩ (by decide)

/-- **C05** a run consumed to the end in a writing mode leaves a complete node, so that the next run (in
any mode except `overwrite` and `none`) is served from the file without asking the source. -/
theorem C05_full_run_completes (data : List α) (hd : data ≠ []) (source : Nat → List (List α))
    (hsrc : ∀ num, 0 < num → IsBlocking num data (source num)) (history : List CacheRun)
    (hnum : ∀ r ∈ history, 0 < r.num) (mode : CacheMode)
    (hmode : mode = .individual ∨ mode = .all ∨ mode = .overwrite) (num : Nat) (hn : 0 < num) :
    let f := cacheHistory source history none
    applyActs (Cache.result mode num (source num) f) f = some (some ⟨data, some true⟩) := by
  intro f
  have hinv : CacheInv data f := history_inv source hd hsrc history hnum none (inv_none data)
  have hflat := (hsrc num hn).cover
  have hb : source num ≠ [] := by intro e; rw [e] at hflat; exact hd hflat.symm
  have hhead : ∀ (skip : Nat) (g : Option (CacheNode α)),
      applyActs (writeLoop skip 0 (source num) ++ [.setComplete true]) (some g) = some (some ⟨data, some true⟩) := by
    intro skip g
    cases hS : source num with
    | nil => exact absurd hS hb
    | cons b bs =>
      rw [hS] at hflat
      have hp : b ++ bs.flatten <+: data := by rw [← hflat]; simp
      obtain ⟨-, i2⟩ := writeLoop_tail (data := data) skip bs 1 b (some false) (by omega) (by simp) hp
      rw [writeLoop, if_pos rfl, applyActs_append, applyActs_append]
      have : applyActs ([.create, .setComplete false] ++ [.append b] ++ if 0 ≥ skip then [.yld b] else []) (some g)
          = some (some ⟨b, some false⟩) := by
        by_cases hs : 0 ≥ skip
        · rw [if_pos hs]; rfl
        · rw [if_neg hs]; rfl
      rw [this, i2]
      show some (some _) = _
      rw [← hflat]; simp
  have hw : ∀ g, applyActs (writeActs (source num)) (some g) = some (some ⟨data, some true⟩) := by
    intro g; rw [writeActs, if_neg hb]; exact hhead 0 g
  have hread : ∀ node : CacheNode α, f = some (some node) → node.complete = some true →
      applyActs (readActs node num) f = some (some ⟨data, some true⟩) := by
    intro node hf hc
    rw [readActs, (safe_yields _ hinv).2, hf]
    have := (hinv node hf).2 hc
    cases node; simp_all
  have hinc : ∀ node : CacheNode α, f = some (some node) →
      applyActs (incompleteActs node (source num) num) f = some (some ⟨data, some true⟩) := by
    intro node hf
    unfold incompleteActs
    simp only
    rw [if_neg hb, List.append_assoc, List.append_assoc, applyActs_append, (safe_yields _ hinv).2,
      applyActs_append, hf]
    exact hhead _ _
  clear_value f
  rcases hmode with rfl | rfl | rfl <;> simp only [Cache.result]
  · split
    · exact hw none
    · exact hw none
    · split
      · next h => exact hread _ rfl h
      · exact hinc _ rfl
  · split
    · exact hw none
    · exact hw none
    · split
      · next h => exact hread _ rfl h
      · exact hinc _ rfl
  · split
    · exact hw none
    · exact hw none
    · exact hw none

/-- The hypotheses of `C05_full_run_completes` are met: -/
example := C05_full_run_completes [1, 2, 3, 4, 5] (by decide) (fun num => chunks num [1, 2, 3, 4, 5])
  (fun _ h => isBlocking_chunks h _) [⟨.individual, 2, 5⟩] (by decide) .all (by decide) 3 (by decide)

/-! Concrete histories. -/

example : cacheHistory (fun num => chunks num [1, 2, 3, 4, 5])
    [⟨.individual, 2, 5⟩, ⟨.readonly, 2, 100⟩] none = some (some ⟨[1, 2], some false⟩) := by decide

example : yields (Cache.result .individual 3 (chunks 3 [1, 2, 3, 4, 5])
    (cacheHistory (fun num => chunks num [1, 2, 3, 4, 5]) [⟨.individual, 2, 7⟩] none))
    = [[1, 2, 3], [4, 5]] := by decide

example : IsBlocking 3 [1, 2, 3, 4, 5] (yields (Cache.result .all 3 (chunks 3 [1, 2, 3, 4, 5])
    (cacheHistory (fun num => chunks num [1, 2, 3, 4, 5]) [⟨.individual, 2, 7⟩, ⟨.overwrite, 1, 3⟩] none))) :=
  (C04_cache_transparent [1, 2, 3, 4, 5] (by decide) (fun num => chunks num [1, 2, 3, 4, 5])
    (fun _ h => isBlocking_chunks h _) [⟨.individual, 2, 7⟩, ⟨.overwrite, 1, 3⟩] (by decide) .all 3 (by decide)).2.1

end Acoular
