import Verif.Spec.Lazy
import Mathlib.Data.List.Sort
import Mathlib.Data.Rat.Defs
import Mathlib.Algebra.Order.Ring.Rat
import Mathlib.Tactic.Ring

/-!
# Property theorems: lazily computed beamformer results (C21)
-/

namespace Acoular

open Spec

variable {V : Type*}

section Index

private theorem sliceIndices_fst (a : Int) (b : Option Int) (n : Nat) :
    ((sliceIndices a b n).1 : Int) = min (max 0 (pyBound a n)) n := by
  unfold sliceIndices pyBound
  simp only
  split <;> omega

private theorem sliceIndices_snd_some (a v : Int) (n : Nat) :
    ((sliceIndices a (some v) n).2 : Int) = min (max 0 (pyBound v n)) n := by
  unfold sliceIndices pyBound
  simp only
  split <;> omega

private theorem sliceIndices_snd_none (a : Int) (n : Nat) : (sliceIndices a none n).2 = n := rfl

private theorem mem_arange {a b st i : Nat} (hst : 0 < st) :
    (i ∈ (List.range ((b - a + st - 1) / st)).map fun j => a + j * st) ↔ a ≤ i ∧ i < b ∧ st ∣ i - a := by
  rw [List.mem_map]
  constructor
  · rintro ⟨j, hj, rfl⟩
    rw [List.mem_range, Nat.lt_div_iff_mul_lt hst] at hj
    refine ⟨by omega, ?_, ?_⟩
    · have := Nat.mul_comm j st; omega
    · rw [Nat.add_sub_cancel_left]; exact Nat.dvd_mul_left st j
  · rintro ⟨h1, h2, c, hc⟩
    refine ⟨c, ?_, ?_⟩
    · rw [List.mem_range, Nat.lt_div_iff_mul_lt hst]
      have := Nat.mul_comm c st
      omega
    · rw [Nat.mul_comm c st]; omega

/-- The expansion of a slice in the code and in the specification. -/
private theorem arangeIdx_eq (a : Int) (b : Option Int) (st n : Nat) (hst : 0 < st) :
    arangeIdx a b st n = sliceLines a b st n := by
  have hp1 : (arangeIdx a b st n).Pairwise (· < ·) := by
    unfold arangeIdx
    simp only
    rw [List.pairwise_map]
    apply List.Pairwise.imp _ List.pairwise_lt_range
    intro x y hxy
    have := Nat.mul_lt_mul_of_pos_right hxy hst
    omega
  have hp2 : (sliceLines a b st n).Pairwise (· < ·) := List.pairwise_lt_range.filter _
  apply hp1.eq_of_mem_iff hp2
  intro i
  have h1 := sliceIndices_fst a b n
  unfold arangeIdx sliceLines
  simp only
  rw [mem_arange hst, List.mem_filter, List.mem_range]
  have hd : ∀ lo : Nat, lo ≤ i → ((st ∣ i - lo) ↔ ((st : Int) ∣ (i : Int) - (lo : Int))) := by
    intro lo hlo
    rw [← Int.natCast_dvd_natCast, Int.ofNat_sub hlo]
  cases b with
  | none =>
    rw [sliceIndices_snd_none]
    simp only [Bool.and_true, Bool.and_eq_true, decide_eq_true_eq]
    constructor
    · rintro ⟨h2, h3, h4⟩
      have e : ((sliceIndices a none n).1 : Int) = max 0 (pyBound a n) := by omega
      refine ⟨h3, by omega, ?_⟩
      rw [← e]; exact (hd _ h2).1 h4
    · rintro ⟨h2, h3, h4⟩
      have e : ((sliceIndices a none n).1 : Int) = max 0 (pyBound a n) := by omega
      rw [← e] at h4
      exact ⟨by omega, h2, (hd _ (by omega)).2 h4⟩
  | some v =>
    have h2 := sliceIndices_snd_some a v n
    simp only [Bool.and_eq_true, decide_eq_true_eq]
    constructor
    · rintro ⟨h3, h4, h5⟩
      have e : ((sliceIndices a (some v) n).1 : Int) = max 0 (pyBound a n) := by omega
      refine ⟨by omega, ⟨by omega, by omega⟩, ?_⟩
      rw [← e]; exact (hd _ h3).1 h5
    · rintro ⟨h3, ⟨h4, h5⟩, h6⟩
      have e : ((sliceIndices a (some v) n).1 : Int) = max 0 (pyBound a n) := by omega
      rw [← e] at h6
      exact ⟨by omega, by omega, (hd _ (by omega)).2 h6⟩

private theorem mem_sliceLines_lt {a : Int} {b : Option Int} {st n i : Nat} (h : i ∈ sliceLines a b st n) : i < n :=
  List.mem_range.1 (List.mem_filter.1 h).1

end Index

section General

/-- Keys handled: slices with positive step; integers other than −1. -/
def BfKey.ok : BfKey → Prop
  | .int k => k ≠ -1
  | .slice _ _ st => 0 < st

/-- What a family of `_calc` changes has to satisfy: an invariant `Inv` of the arrays that holds for zeros, is kept
by every prefix of the changes, makes flagged lines right; and afterwards the covered lines (`P`) that were
asked for are flagged. -/
structure CalcOk (cal : List Nat → BfState V → List (BfAct V)) (value : Nat → V) (n : Nat) (zero : V)
    (P : Nat → Prop) (Inv : BfState V → Prop) : Prop where
  init : Inv (.zeros n zero)
  len_ac : ∀ s, Inv s → s.ac.length = n
  len_fr : ∀ s, Inv s → s.fr.length = n
  right : ∀ s, Inv s → ∀ i, s.fr[i]? = some true → s.ac[i]? = some (value i)
  keep : ∀ s, Inv s → ∀ ind : List Nat, (∀ i ∈ ind, i < n) → ∀ k, Inv (applyBf ((cal ind s).take k) s)
  done : ∀ s, Inv s → ∀ ind : List Nat, (∀ i ∈ ind, i < n) → ∀ i, i < n → P i →
    i ∈ ind ∨ s.fr[i]? = some true → (applyBf (cal ind s) s).fr[i]? = some true

variable {cal : List Nat → BfState V → List (BfAct V)} {value : Nat → V} {n : Nat} {zero : V}
  {P : Nat → Prop} {Inv : BfState V → Prop}

private theorem indices_lt {key : BfKey} {i : Nat} (hk : key.ok) (h : i ∈ key.indices n) : i < n := by
  cases key with
  | int k =>
    rw [BfKey.indices, arangeIdx_eq _ _ _ _ Nat.one_pos] at h
    exact mem_sliceLines_lt h
  | slice a b st =>
    rw [BfKey.indices, arangeIdx_eq _ _ _ _ hk] at h
    exact mem_sliceLines_lt h

private theorem missing_lt {key : BfKey} {fr : List Bool} {i : Nat} (hk : 0 < n → key.ok ∨ key = .int (-1))
    (h : i ∈ missingInd n key fr) : i < n := by
  have h' : i ∈ key.indices n := (List.mem_filter.1 h).1
  cases key with
  | int k =>
    rw [BfKey.indices, arangeIdx_eq _ _ _ _ Nat.one_pos] at h'
    exact mem_sliceLines_lt h'
  | slice a b st =>
    by_cases hn : n = 0
    · subst hn
      exfalso
      unfold BfKey.indices arangeIdx at h'
      have h2 : (sliceIndices a b 0).2 = 0 := by
        cases b with
        | none => rfl
        | some v => have := sliceIndices_snd_some a v 0; omega
      simp only at h'
      rw [h2, List.mem_map] at h'
      obtain ⟨j, hj, -⟩ := h'
      rw [List.mem_range] at hj
      have : (0 - (sliceIndices a b 0).1 + st - 1) / st = 0 := by
        rcases Nat.eq_zero_or_pos st with h | h
        · subst h; simp
        · exact Nat.div_eq_of_lt (by omega)
      omega
    · rcases hk (by omega) with h2 | h2
      · exact indices_lt h2 (by exact (List.mem_filter.1 h).1)
      · cases h2

/-- Valid keys of a request: an integer, or a slice with positive step. -/
def BfKey.valid : BfKey → Prop
  | .int _ => True
  | .slice _ _ st => 0 < st

private theorem missing_lt' {key : BfKey} {fr : List Bool} {i : Nat} (hk : key.valid)
    (h : i ∈ missingInd n key fr) : i < n := by
  apply missing_lt _ h
  intro _
  cases key with
  | int k =>
    by_cases h : k = -1
    · right; rw [h]
    · left; exact h
  | slice a b st => left; exact hk

private theorem get_keep (hc : CalcOk cal value n zero P Inv) {key : BfKey} (hk : key.valid) {s : BfState V}
    (hs : Inv s) (k : Nat) : Inv (applyBf ((lazyGet cal n key s).1.take k) s) := by
  unfold lazyGet
  simp only
  split
  · simpa [applyBf] using hs
  · exact hc.keep s hs _ (fun i hi => missing_lt' hk hi) k

private theorem get_keep_full (hc : CalcOk cal value n zero P Inv) {key : BfKey} (hk : key.valid) {s : BfState V}
    (hs : Inv s) : Inv (applyBf (lazyGet cal n key s).1 s) := by
  have := get_keep hc hk hs (lazyGet cal n key s).1.length
  rwa [List.take_length] at this

private theorem applyBf_append (a b : List (BfAct V)) (s : BfState V) :
    applyBf (a ++ b) s = applyBf b (applyBf a s) := List.foldl_append

private theorem requests_keep (hc : CalcOk cal value n zero P Inv) : ∀ (keys : List BfKey), (∀ k ∈ keys, k.valid) →
    ∀ (s : BfState V), Inv s → ∀ k, Inv (applyBf ((lazyRequests cal n keys s).1.take k) s) := by
  intro keys
  induction keys with
  | nil => intro _ s hs k; simpa [lazyRequests, applyBf] using hs
  | cons key keys ih =>
    intro hv s hs k
    unfold lazyRequests
    simp only
    rw [List.take_append, applyBf_append]
    by_cases hk : (lazyGet cal n key s).1.length ≤ k
    · rw [List.take_of_length_le hk]
      exact ih (fun k hk => hv k (List.mem_cons_of_mem _ hk)) _ (get_keep_full hc (hv key List.mem_cons_self) hs) _
    · have e : k - (lazyGet cal n key s).1.length = 0 := by omega
      rw [e, List.take_zero]
      exact get_keep hc (hv key List.mem_cons_self) hs k

private theorem get_answer (hc : CalcOk cal value n zero P Inv) {key : BfKey} (hk : key.ok) (hP : ∀ i ∈ key.indices n, P i)
    {s : BfState V} (hs : Inv s) : (lazyGet cal n key s).2 = lazyAnswer value n key := by
  have hv : key.valid := by cases key with
    | int => trivial
    | slice => exact hk
  have hs' := get_keep_full hc hv hs
  have hac := hc.len_ac _ hs'
  have hdone : ∀ i ∈ key.indices n, (applyBf (lazyGet cal n key s).1 s).ac[i]? = some (value i) := by
    intro i hi
    apply hc.right _ hs'
    have hin : i < n := indices_lt hk hi
    have hcases : i ∈ missingInd n key s.fr ∨ s.fr[i]? = some true := by
      have hl := hc.len_fr _ hs
      by_cases h : s.fr[i]? = some false
      · left; exact List.mem_filter.2 ⟨hi, by simp [h]⟩
      · right
        rw [List.getElem?_eq_getElem (by omega)] at h ⊢
        cases hb : s.fr[i] with
        | true => rfl
        | false => rw [hb] at h; exact absurd rfl h
    unfold lazyGet
    simp only
    split
    · rename_i hm
      rcases hcases with h | h
      · rw [hm] at h; simp at h
      · exact h
    · exact hc.done s hs _ (fun i hi => missing_lt' hv hi) i hin (hP i hi) hcases
  show getItem (applyBf (lazyGet cal n key s).1 s).ac key = _
  generalize (applyBf (lazyGet cal n key s).1 s).ac = ac at hac hdone
  cases key with
  | int k =>
    unfold getItem lazyAnswer
    simp only [hac]
    have hk1 : k ≠ -1 := hk
    have key1 : -(n : Int) ≤ k → k < n → ac[(pyBound k n).toNat]? = some (value (pyBound k n).toNat) := by
      intro h1 h2
      apply hdone
      rw [BfKey.indices, arangeIdx_eq _ _ _ _ Nat.one_pos]
      unfold sliceLines pyBound
      rw [List.mem_filter, List.mem_range]
      simp only [Bool.and_eq_true, decide_eq_true_eq]
      split <;> split <;> refine ⟨by omega, ⟨by omega, by omega⟩, ?_⟩ <;> exact Int.one_dvd _
    have hpb : (if k < 0 then k + (n : Int) else k) = pyBound k n := rfl
    rw [hpb]
    by_cases h1 : -(n : Int) ≤ k ∧ k < n
    · rw [if_pos h1]
      have : ¬ pyBound k n < 0 := by unfold pyBound; split <;> omega
      rw [if_neg this, key1 h1.1 h1.2]
    · rw [if_neg h1]
      by_cases h2 : pyBound k n < 0
      · rw [if_pos h2]
      · rw [if_neg h2]
        have : ac[(pyBound k n).toNat]? = none := by
          rw [List.getElem?_eq_none_iff]
          unfold pyBound at h2 ⊢
          split <;> split at h2 <;> omega
        rw [this]
  | slice a b st =>
    unfold getItem lazyAnswer
    simp only [hac]
    rw [← arangeIdx_eq a b st n hk]
    congr 2
    have hd2 : ∀ i ∈ arangeIdx a b st n, ac[i]? = some (value i) := hdone
    generalize arangeIdx a b st n = l at hd2
    induction l with
    | nil => rfl
    | cons x l ih =>
      rw [List.filterMap_cons, hd2 x List.mem_cons_self, List.map_cons]
      simp only
      rw [ih (fun i hi => hd2 i (List.mem_cons_of_mem _ hi))]

private theorem requests_answers (hc : CalcOk cal value n zero P Inv) : ∀ (keys : List BfKey), (∀ k ∈ keys, k.valid) →
    ∀ (s : BfState V), Inv s → ∀ (j : Nat) (key : BfKey), keys[j]? = some key → key.ok → (∀ i ∈ key.indices n, P i) →
      (lazyRequests cal n keys s).2[j]? = some (lazyAnswer value n key) := by
  intro keys
  induction keys with
  | nil => intro _ s _ j key h; simp at h
  | cons key0 keys ih =>
    intro hv s hs j key hj hk hP
    unfold lazyRequests
    simp only
    cases j with
    | zero =>
      rw [List.getElem?_cons_zero] at hj ⊢
      cases hj
      rw [get_answer hc hk hP hs]
    | succ j =>
      rw [List.getElem?_cons_succ] at hj ⊢
      exact ih (fun k hk => hv k (List.mem_cons_of_mem _ hk)) _ (get_keep_full hc (hv key0 List.mem_cons_self) hs) j key hj hk hP

/-- What the file can look like. -/
private def FileInv (Inv : BfState V → Prop) (f : BfFile V) : Prop :=
  ∀ nd, f = some nd → ∀ s, nd.arrays = .ok s → Inv s

private theorem arrays_ok {nd : BfNode V} {s : BfState V} (h : nd.arrays = .ok s) :
    nd = ⟨some s.fr, some s.ac⟩ := by
  obtain ⟨fr, ac⟩ := nd
  cases fr <;> cases ac <;> simp [BfNode.arrays] at h
  subst h; rfl

private theorem applyBfFile_cells (acts : List (BfAct V)) : ∀ s : BfState V,
    applyBfFile (acts.map .cell) (some ⟨some s.fr, some s.ac⟩) =
      some ⟨some (applyBf acts s).fr, some (applyBf acts s).ac⟩ := by
  induction acts with
  | nil => intro s; rfl
  | cons a acts ih => intro s; exact ih (a.apply s)

private theorem applyBfFile_append (a b : List (BfFileAct V)) (f : BfFile V) :
    applyBfFile (a ++ b) f = applyBfFile b (applyBfFile a f) := List.foldl_append

private theorem fileInv_of_state {s : BfState V} (hs : Inv s) : FileInv Inv (some ⟨some s.fr, some s.ac⟩ : BfFile V) := by
  intro nd hnd s' hs'
  cases hnd
  simp [BfNode.arrays] at hs'
  rw [← hs']; exact hs

private theorem create_inv (k : Nat) (f : BfFile V) :
    (applyBfFile (createActs n zero) f = some ⟨some (List.replicate n false), some (List.replicate n zero)⟩) ∧
    (k < 3 → FileInv Inv f → FileInv Inv (applyBfFile ((createActs n zero).take k) f)) := by
  refine ⟨rfl, ?_⟩
  intro hk hf
  match k, hk with
  | 0, _ => exact hf
  | 1, _ => intro nd hnd s hs; simp [createActs, applyBfFile, BfFileAct.apply] at hnd; subst hnd; simp [BfNode.arrays] at hs
  | 2, _ => intro nd hnd s hs; simp [createActs, applyBfFile, BfFileAct.apply] at hnd; subst hnd; simp [BfNode.arrays] at hs

/-- Opening and then requesting in a mode that writes, interrupted after `k` changes. -/
private theorem open_create_keep (changes : List (BfAct V))
    (hch : ∀ k, Inv (applyBf (changes.take k) (.zeros n zero))) (f : BfFile V) (hf : FileInv Inv f) (k : Nat) :
    FileInv Inv (applyBfFile ((createActs n zero ++ changes.map BfFileAct.cell).take k) f) := by
  rw [List.take_append, applyBfFile_append]
  by_cases hk : k < 3
  · have e : k - (createActs n zero).length = 0 := by show k - 3 = 0; omega
    rw [e, List.take_zero]
    exact (create_inv k f).2 hk hf
  · rw [List.take_of_length_le (l := createActs n zero) (by show 3 ≤ k; omega), (create_inv (Inv := Inv) k f).1, ← List.map_take]
    have := applyBfFile_cells (changes.take (k - (createActs n zero).length)) (.zeros n zero)
    rw [show (some ⟨some (List.replicate n false), some (List.replicate n zero)⟩ : BfFile V) =
      some ⟨some (BfState.zeros n zero).fr, some (BfState.zeros n zero).ac⟩ from rfl, this]
    exact fileInv_of_state (hch _)

private theorem session_keep (hc : CalcOk cal value n zero P Inv) (mode : CacheMode) (keys : List BfKey)
    (hv : ∀ k ∈ keys, k.valid) (f : BfFile V) (hf : FileInv Inv f) (k : Nat) :
    FileInv Inv (applyBfFile ((bfSession cal mode n zero keys f).1.take k) f) := by
  have hz : ∀ k, Inv (applyBf ((lazyRequests cal n keys (.zeros n zero)).1.take k) (.zeros n zero)) :=
    requests_keep hc keys hv _ hc.init
  have hexist : ∀ nd, f = some nd → ∀ m, bfOpen m n zero f = ([], nd.arrays) → m.writes = true →
      FileInv Inv (applyBfFile ((bfSession cal m n zero keys f).1.take k) f) := by
    intro nd hnd m hm hw
    unfold bfSession
    rw [hm]
    cases ha : nd.arrays with
    | error e => simpa [applyBfFile] using hf
    | ok s =>
      simp only [hw, if_true, List.nil_append]
      rw [← List.map_take, hnd, arrays_ok ha, applyBfFile_cells]
      exact fileInv_of_state (requests_keep hc keys hv s (hf nd hnd s ha) k)
  have hnew : ∀ m, bfOpen m n zero f = (createActs n zero, .ok (.zeros n zero)) → m.writes = true →
      FileInv Inv (applyBfFile ((bfSession cal m n zero keys f).1.take k) f) := by
    intro m hm hw
    unfold bfSession
    rw [hm]
    simp only [hw, if_true]
    exact open_create_keep _ hz f hf k
  have hro : ∀ m, (bfOpen m n zero f).1 = [] → m.writes = false →
      FileInv Inv (applyBfFile ((bfSession cal m n zero keys f).1.take k) f) := by
    intro m hm hw
    unfold bfSession
    rcases ho : bfOpen m n zero f with ⟨acts, r⟩
    rw [ho] at hm
    simp only at hm
    subst hm
    cases r with
    | error e => simpa [applyBfFile] using hf
    | ok s => simpa [applyBfFile, hw] using hf
  cases mode with
  | none => exact hro _ rfl rfl
  | readonly => cases f <;> exact hro _ rfl rfl
  | individual =>
    cases hF : f with
    | none => rw [← hF]; exact hnew _ (by rw [hF]; rfl) rfl
    | some nd => rw [← hF]; exact hexist nd hF _ (by rw [hF]; rfl) rfl
  | all =>
    cases hF : f with
    | none => rw [← hF]; exact hnew _ (by rw [hF]; rfl) rfl
    | some nd => rw [← hF]; exact hexist nd hF _ (by rw [hF]; rfl) rfl
  | overwrite =>
    cases hF : f with
    | none => rw [← hF]; exact hnew _ (by rw [hF]; rfl) rfl
    | some nd =>
      have e : (bfSession cal .overwrite n zero keys (some nd)).1 =
          .removeNode :: (createActs n zero ++ (lazyRequests cal n keys (.zeros n zero)).1.map .cell) := rfl
      rw [e]
      cases k with
      | zero => rw [hF] at hf; exact hf
      | succ k =>
        rw [List.take_succ_cons]
        exact open_create_keep _ hz none (by intro nd h; cases h) k

private theorem history_keep (hc : CalcOk cal value n zero P Inv) : ∀ (h : List (CacheMode × List BfKey × Nat)),
    (∀ x ∈ h, ∀ k ∈ x.2.1, BfKey.valid k) → ∀ f : BfFile V, FileInv Inv f → FileInv Inv (bfHistory cal n zero h f) := by
  intro h
  induction h with
  | nil => intro _ f hf; exact hf
  | cons x h ih =>
    intro hv f hf
    obtain ⟨mode, keys, k⟩ := x
    exact ih (fun x hx => hv x (List.mem_cons_of_mem _ hx)) _
      (session_keep hc mode keys (hv _ List.mem_cons_self) f hf k)

private theorem open_inv (hc : CalcOk cal value n zero P Inv) {mode : CacheMode} {f : BfFile V} (hf : FileInv Inv f)
    {s : BfState V} (h : (bfOpen mode n zero f).2 = .ok s) : Inv s := by
  cases mode <;> cases hF : f with
  | none =>
    rw [hF] at h
    simp only [bfOpen] at h
    cases h
    exact hc.init
  | some nd =>
    rw [hF] at h
    simp only [bfOpen] at h
    first
      | (cases h; exact hc.init)
      | exact hf nd hF s h

/-- The general statement for any `_calc` that keeps an invariant. -/
private theorem general (hc : CalcOk cal value n zero P Inv) (history : List (CacheMode × List BfKey × Nat))
    (hh : ∀ x ∈ history, ∀ k ∈ x.2.1, BfKey.valid k) (mode : CacheMode) (keys : List BfKey) (hv : ∀ k ∈ keys, k.valid)
    (answers : List (Except PyErr (BfAns V)))
    (ha : (bfSession cal mode n zero keys (bfHistory cal n zero history none)).2 = .ok answers)
    (j : Nat) (key : BfKey) (hj : keys[j]? = some key) (hk : key.ok) (hP : ∀ i ∈ key.indices n, P i) :
    answers[j]? = some (lazyAnswer value n key) := by
  have hf : FileInv Inv (bfHistory cal n zero history none) :=
    history_keep hc history hh none (by intro nd h; cases h)
  unfold bfSession at ha
  rcases ho : bfOpen mode n zero (bfHistory cal n zero history none) with ⟨acts, r⟩
  rw [ho] at ha
  cases r with
  | error e => cases ha
  | ok s =>
    simp only [Except.ok.injEq] at ha
    rw [← ha]
    exact requests_answers hc keys hv s (open_inv hc hf (by rw [ho])) j key hj hk hP

end General

/-! ## The beamformers with a plain assignment per line -/

section Base

variable (value : Nat → V) (n : Nat) (zero : V)

private def Good (s : BfState V) : Prop :=
  s.ac.length = n ∧ s.fr.length = n ∧ ∀ i, s.fr[i]? = some true → s.ac[i]? = some (value i)

private theorem good_setAc {s : BfState V} (h : Good value n s) {i : Nat} (hi : i < n) :
    Good value n (BfAct.apply s (.setAc i (value i))) := by
  refine ⟨by simp [BfAct.apply, h.1], h.2.1, ?_⟩
  intro j hj
  show (s.ac.set i (value i))[j]? = _
  rw [List.getElem?_set]
  split
  · rename_i hij
    rw [hij, if_pos (by have := h.1; omega)]
  · exact h.2.2 j hj

private theorem good_both {s : BfState V} (h : Good value n s) {i : Nat} (hi : i < n) :
    Good value n (BfAct.apply (BfAct.apply s (.setAc i (value i))) (.setFr i)) := by
  have h1 := good_setAc value n h hi
  refine ⟨h1.1, by simp [BfAct.apply, h.2.1], ?_⟩
  intro j hj
  by_cases hij : i = j
  · subst hij
    show (s.ac.set i (value i))[i]? = _
    rw [List.getElem?_set, if_pos rfl, if_pos (by have := h.1; omega)]
  · apply h1.2.2
    have : (s.fr.set i true)[j]? = some true := hj
    rwa [List.getElem?_set, if_neg hij] at this

private theorem calcActs_cons (i : Nat) (ind : List Nat) :
    calcActs value (i :: ind) = .setAc i (value i) :: .setFr i :: calcActs value ind := rfl

private theorem calc_keep (ind : List Nat) : (∀ i ∈ ind, i < n) → ∀ (s : BfState V), Good value n s → ∀ k,
    Good value n (applyBf ((calcActs value ind).take k) s) := by
  induction ind with
  | nil => intro _ s hs k; simpa [calcActs, applyBf] using hs
  | cons i ind ih =>
    intro hi s hs k
    rw [calcActs_cons]
    have hin := hi i List.mem_cons_self
    match k with
    | 0 => exact hs
    | 1 => exact good_setAc value n hs hin
    | k + 2 => exact ih (fun j hj => hi j (List.mem_cons_of_mem _ hj)) _ (good_both value n hs hin) k

private theorem calc_fr (ind : List Nat) : (∀ i ∈ ind, i < n) → ∀ (s : BfState V), s.fr.length = n → ∀ i,
    i ∈ ind ∨ s.fr[i]? = some true → (applyBf (calcActs value ind) s).fr[i]? = some true := by
  induction ind with
  | nil => intro _ s _ i h; simpa [calcActs, applyBf] using h
  | cons a ind ih =>
    intro hlt s hl i h
    rw [calcActs_cons]
    apply ih (fun j hj => hlt j (List.mem_cons_of_mem _ hj)) (BfAct.apply (BfAct.apply s (.setAc a (value a))) (.setFr a))
      (by simp [BfAct.apply, hl])
    show i ∈ ind ∨ (s.fr.set a true)[i]? = some true
    rw [List.getElem?_set]
    by_cases hai : a = i
    · right; rw [if_pos hai, if_pos (by rw [hl]; exact hlt a List.mem_cons_self)]
    · rw [if_neg hai]
      rcases h with h | h
      · rcases List.mem_cons.1 h with h | h
        · exact absurd h.symm hai
        · exact Or.inl h
      · exact Or.inr h

private theorem base_ok : CalcOk (fun ind _ => calcActs value ind) value n zero (fun _ => True) (Good value n) where
  init := by
    refine ⟨List.length_replicate, List.length_replicate, ?_⟩
    intro i h
    have h' : (List.replicate n false)[i]? = some true := h
    rw [List.getElem?_replicate] at h'
    split at h' <;> simp at h'
  len_ac := fun s h => h.1
  len_fr := fun s h => h.2.1
  right := fun s h => h.2.2
  keep := fun s h ind hi k => calc_keep value n ind hi s h k
  done := fun s h ind hi i _ _ hh => calc_fr value n ind hi s h.2.1 i hh

/-- **C21, partial.** For a beamformer that writes each line by one assignment: in every session, in every caching
mode, after every history of sessions in any modes which may have been interrupted anywhere, if the arrays
can be opened then every requested key other than the integer −1 gives the right answer. -/
theorem C21_lazy_result_partial (history : List (CacheMode × List BfKey × Nat))
    (hh : ∀ x ∈ history, ∀ k ∈ x.2.1, BfKey.valid k) (mode : CacheMode) (keys : List BfKey) (hv : ∀ k ∈ keys, k.valid)
    (answers : List (Except PyErr (BfAns V)))
    (ha : (bfSession (fun ind _ => calcActs value ind) mode n zero keys
      (bfHistory (fun ind _ => calcActs value ind) n zero history none)).2 = .ok answers)
    (j : Nat) (key : BfKey) (hj : keys[j]? = some key) (hk : key ≠ .int (-1)) :
    answers[j]? = some (lazyAnswer value n key) := by
  apply general (base_ok value n zero) history hh mode keys hv answers ha j key hj _ (fun _ _ => trivial)
  cases key with
  | int k => intro h; exact hk (by rw [h])
  | slice a b st => exact hv _ (List.mem_of_getElem? hj)

/-- The hypotheses of `C21_lazy_result_partial` are met: -/
example := C21_lazy_result_partial (fun i => (i : ℚ) + 1) 4 0 [(.individual, [.int 3, .int 2], 5)] (by simp [BfKey.valid]) .readonly [.int 2, .slice 0 none 2]
  (by simp [BfKey.valid]) [.ok (.line 3), .ok (.lines [1, 3])] (by decide +kernel) 1 (.slice 0 none 2) rfl (by decide)

/-- Every line that is computed is computed once: after a complete request, a second request for the same key
makes no change at all. -/
theorem C21_computed_once (key : BfKey) (hk : key.valid) (s : BfState V) (hf : s.fr.length = n) :
    (lazyGet (fun ind _ => calcActs value ind) n key
      (applyBf (lazyGet (fun ind _ => calcActs value ind) n key s).1 s)).1 = [] := by
  have h2 : missingInd n key (applyBf (lazyGet (fun ind _ => calcActs value ind) n key s).1 s).fr = [] := by
    unfold missingInd
    rw [List.filter_eq_nil_iff]
    intro i hi
    unfold lazyGet
    simp only
    split
    · rename_i hm
      intro h
      have : i ∈ missingInd n key s.fr := List.mem_filter.2 ⟨hi, h⟩
      rw [hm] at this
      simp at this
    · have hin : i < n := by
        cases key with
        | int k =>
          rw [BfKey.indices, arangeIdx_eq _ _ _ _ Nat.one_pos] at hi
          exact mem_sliceLines_lt hi
        | slice a b st =>
          rw [BfKey.indices, arangeIdx_eq _ _ _ _ hk] at hi
          exact mem_sliceLines_lt hi
      have : (applyBf (calcActs value (missingInd n key s.fr)) s).fr[i]? = some true := by
        apply calc_fr value n _ (fun i hi => missing_lt' hk hi) s hf
        by_cases h : s.fr[i]? = some false
        · left; exact List.mem_filter.2 ⟨hi, by simp [h]⟩
        · right
          rw [List.getElem?_eq_getElem (by omega)] at h ⊢
          cases hb : s.fr[i] with
          | true => rfl
          | false => rw [hb] at h; exact absurd rfl h
      rw [this]; simp
  generalize (applyBf (lazyGet (fun ind _ => calcActs value ind) n key s).1 s) = s' at h2
  unfold lazyGet
  simp only
  rw [if_pos h2]

/-- The hypotheses of `C21_computed_once` are met: -/
example := C21_computed_once (fun i => (i : ℚ) + 1) 2 (.int 1) (by simp [BfKey.valid]) ⟨[0, 0], [false, false]⟩ rfl

end Base

/-- **C21, violated.** The key −1 does not compute the last line: on a new result it returns zeros, whatever the
value of the last line. -/
theorem C21_minus_one_violated (value : Nat → V) (n : Nat) (hn : 0 < n) (zero : V) (mode : CacheMode) :
    (bfSession (fun ind _ => calcActs value ind) mode n zero [.int (-1)] none).2 = .ok [.ok (.line zero)] := by
  have hs : (bfOpen mode n zero (none : BfFile V)).2 = .ok (.zeros n zero) := by cases mode <;> rfl
  have hm : missingInd n (.int (-1)) (BfState.zeros n zero).fr = [] := by
    unfold missingInd
    rw [BfKey.indices, arangeIdx_eq _ _ _ _ Nat.one_pos]
    have : sliceLines (-1) (some (-1 + 1)) 1 n = [] := by
      unfold sliceLines
      rw [List.filter_eq_nil_iff]
      intro i _
      simp [pyBound]
    rw [this]; rfl
  have hg : lazyGet (fun ind _ => calcActs value ind) n (.int (-1)) (BfState.zeros n zero) = ([], .ok (.line zero)) := by
    unfold lazyGet
    simp only
    rw [if_pos hm]
    simp only [applyBf, List.foldl_nil, BfState.zeros, getItem, List.length_replicate]
    rw [if_pos (show (-1 : Int) < 0 by omega), if_neg (by omega), List.getElem?_replicate, if_pos (by omega)]
  unfold bfSession
  rcases ho : bfOpen mode n zero (none : BfFile V) with ⟨acts, r⟩
  rw [ho] at hs
  simp only at hs
  subst hs
  simp only [lazyRequests, hg]

/-- An interruption while the arrays are created (not between lines) makes the node unusable: every later
session that uses it fails on opening. -/
theorem C21_crash_in_creation_violated (value : Nat → V) (n : Nat) (zero : V) (keys keys' : List BfKey) (k : Nat)
    (hk : k = 1 ∨ k = 2) (mode : CacheMode) (hm : mode = .individual ∨ mode = .all ∨ mode = .readonly) :
    (bfSession (fun ind _ => calcActs value ind) mode n zero keys'
      (bfHistory (fun ind _ => calcActs value ind) n zero [(.individual, keys, k)] none)).2 = .error .keyError := by
  rcases hk with rfl | rfl <;> rcases hm with rfl | rfl | rfl <;>
    simp [bfSession, bfHistory, bfOpen, createActs, applyBfFile, BfFileAct.apply, BfNode.arrays]

/-- No session of the history was interrupted while the arrays were opened or created. -/
def neverInCreation (cal : List Nat → BfState V → List (BfAct V)) (n : Nat) (zero : V) :
    List (CacheMode × List BfKey × Nat) → BfFile V → Prop
  | [], _ => True
  | (mode, keys, k) :: rest, f => (bfOpen mode n zero f).1.length ≤ k ∧
      neverInCreation cal n zero rest (applyBfFile ((bfSession cal mode n zero keys f).1.take k) f)

private theorem cells_some (acts : List (BfAct V)) (s : BfState V) :
    ∃ s' : BfState V, applyBfFile (acts.map .cell) (some ⟨some s.fr, some s.ac⟩) = some ⟨some s'.fr, some s'.ac⟩ :=
  ⟨_, applyBfFile_cells acts s⟩

private theorem opens_aux (cal : List Nat → BfState V → List (BfAct V)) (n : Nat) (zero : V)
    (h : List (CacheMode × List BfKey × Nat)) : ∀ f : BfFile V, neverInCreation cal n zero h f →
    (f = none ∨ ∃ s : BfState V, f = some ⟨some s.fr, some s.ac⟩) →
    (bfHistory cal n zero h f = none ∨ ∃ s : BfState V, bfHistory cal n zero h f = some ⟨some s.fr, some s.ac⟩) := by
  induction h with
  | nil => intro f _ hf; exact hf
  | cons x h ih =>
    intro f hn hf
    obtain ⟨mode, keys, k⟩ := x
    refine ih _ hn.2 ?_
    have hlen := hn.1
    have hcreate : ∀ (acts : List (BfFileAct V)) (changes : List (BfFileAct V)) (b : BfFile V), acts.length ≤ k →
        applyBfFile acts b = some ⟨some (List.replicate n false), some (List.replicate n zero)⟩ →
        (∃ c : List (BfAct V), changes = c.map .cell) →
        ∃ s : BfState V, applyBfFile ((acts ++ changes).take k) b = some ⟨some s.fr, some s.ac⟩ := by
      rintro acts changes b hl hb ⟨c, rfl⟩
      rw [List.take_append, List.take_of_length_le hl, applyBfFile_append, hb, ← List.map_take]
      exact cells_some _ (.zeros n zero)
    rcases hf with rfl | ⟨s, rfl⟩
    · cases mode with
      | none => left; simp [bfSession, bfOpen, applyBfFile, CacheMode.writes]
      | readonly => left; simp [bfSession, bfOpen, applyBfFile, CacheMode.writes]
      | individual => right; exact hcreate _ _ _ hlen rfl ⟨_, rfl⟩
      | all => right; exact hcreate _ _ _ hlen rfl ⟨_, rfl⟩
      | overwrite => right; exact hcreate _ _ _ hlen rfl ⟨_, rfl⟩
    · right
      cases mode with
      | none => exact ⟨s, by simp [bfSession, bfOpen, applyBfFile, CacheMode.writes]⟩
      | readonly => exact ⟨s, by simp [bfSession, bfOpen, applyBfFile, CacheMode.writes, BfNode.arrays]⟩
      | individual =>
        simp only [bfSession, bfOpen, BfNode.arrays, CacheMode.writes, if_true, List.nil_append]
        rw [← List.map_take]
        exact cells_some _ s
      | all =>
        simp only [bfSession, bfOpen, BfNode.arrays, CacheMode.writes, if_true, List.nil_append]
        rw [← List.map_take]
        exact cells_some _ s
      | overwrite => exact hcreate _ _ _ hlen rfl ⟨_, rfl⟩

/-- **C21.** If no session was interrupted while creating the arrays, the result can always be opened, in every
mode (so that the hypothesis of `C21_lazy_result_partial` is met). -/
theorem C21_opens (cal : List Nat → BfState V → List (BfAct V)) (n : Nat) (zero : V)
    (history : List (CacheMode × List BfKey × Nat)) (hh : neverInCreation cal n zero history none)
    (mode : CacheMode) (keys : List BfKey) :
    ∃ answers, (bfSession cal mode n zero keys (bfHistory cal n zero history none)).2 = .ok answers := by
  rcases opens_aux cal n zero history none hh (Or.inl rfl) with h | ⟨s, h⟩ <;> rw [h] <;>
    cases mode <;> exact ⟨_, rfl⟩

/-- The hypotheses of `C21_opens` are met: -/
example := C21_opens (fun ind _ => calcActs (fun i => (i : ℚ) + 1) ind) 4 0 [] (by simp [neverInCreation]) .individual [.int 2]

/-! ## `BeamformerOrth` -/

/-- **C21, violated.** `BeamformerOrth` adds to the row that is there and sets the flag afterwards: if it is
interrupted between the two, the next request counts the contribution twice. -/
theorem C21_orth_violated (v : ℚ) (hv : v ≠ 0) :
    let cal : List Nat → BfState ℚ → List (BfAct ℚ) := fun ind _ => orthActs (fun _ => [(· + v)]) ind
    ∃ history answers,
      (bfSession cal .individual 1 0 [.int 0] (bfHistory cal 1 0 history none)).2 = .ok answers ∧
      (bfSession cal .individual 1 0 [.int 0] none).2 = .ok [.ok (.line v)] ∧ answers = [.ok (.line (v + v))] ∧
      answers ≠ [.ok (.line v)] := by
  refine ⟨[(.individual, [.int 0], 4)], [.ok (.line (v + v))], ?_, ?_, rfl, ?_⟩
  · simp [bfSession, bfHistory, bfOpen, createActs, lazyRequests, lazyGet, missingInd, BfKey.indices, arangeIdx, sliceIndices,
      BfState.zeros, orthActs, applyBfFile, BfFileAct.apply, BfAct.apply, applyBf, getItem, CacheMode.writes, BfNode.arrays,
      List.range_succ]
  · simp [bfSession, bfOpen, createActs, lazyRequests, lazyGet, missingInd, BfKey.indices, arangeIdx, sliceIndices,
      BfState.zeros, orthActs, BfAct.apply, applyBf, getItem, List.range_succ]
  · intro h
    simp only [List.cons.injEq, Except.ok.injEq, BfAns.line.injEq, and_true] at h
    exact hv (by simpa using h)

/-! ## `BeamformerSODIX` -/

section Sodix

variable (solve : Nat → Option V → V) (n : Nat) (zero : V)

/-- The values of SODIX: each line is solved with the previous line as start value, the first one without.
(There is no value for line 0.) -/
def sodixValue : Nat → V
  | 0 => zero
  | 1 => solve 1 none
  | i + 2 => solve (i + 2) (some (sodixValue (i + 1)))

private def SInv (s : BfState V) : Prop :=
  s.ac.length = n ∧ s.fr.length = n ∧ s.fr[0]? ≠ some true ∧
    (∀ i, s.fr[i]? = some true → s.ac[i]? = some (sodixValue solve zero i)) ∧
    (∀ i, s.fr[i + 2]? = some true → s.fr[i + 1]? = some true)

private theorem sInv_setAc {s : BfState V} (h : SInv solve n zero s) {i : Nat} (v : V) (hi : s.fr[i]? = some false) :
    SInv solve n zero (BfAct.apply s (.setAc i v)) := by
  refine ⟨by simp [BfAct.apply, h.1], h.2.1, h.2.2.1, ?_, h.2.2.2.2⟩
  intro j hj
  have hj' : s.fr[j]? = some true := hj
  show (s.ac.set i v)[j]? = _
  rw [List.getElem?_set]
  split
  · rename_i hij
    rw [← hij, hi] at hj'
    cases hj'
  · exact h.2.2.2.1 j hj'

private theorem sInv_both {s : BfState V} (h : SInv solve n zero s) {i : Nat} (hin : i + 1 < n)
    (hi : s.fr[i + 1]? = some false) (hprev : i = 0 ∨ s.fr[i]? = some true) :
    SInv solve n zero (BfAct.apply (BfAct.apply s
      (.setAc (i + 1) (solve (i + 1) (if s.fr[i]? = some true then s.ac[i]? else none)))) (.setFr (i + 1))) := by
  refine ⟨by simp [BfAct.apply, h.1], by simp [BfAct.apply, h.2.1], ?_, ?_, ?_⟩
  · show (s.fr.set (i + 1) true)[0]? ≠ _
    rw [List.getElem?_set, if_neg (by omega)]
    exact h.2.2.1
  · intro j hj
    have hj' : (s.fr.set (i + 1) true)[j]? = some true := hj
    show (s.ac.set (i + 1) _)[j]? = _
    rw [List.getElem?_set] at hj' ⊢
    by_cases hij : i + 1 = j
    · rw [if_pos hij, if_pos (by have := h.1; omega), ← hij]
      congr 1
      rcases hprev with rfl | hp
      · rw [if_neg h.2.2.1]; rfl
      · rw [if_pos hp, h.2.2.2.1 i hp]
        cases i with
        | zero => exact absurd hp h.2.2.1
        | succ i => rfl
    · rw [if_neg hij] at hj' ⊢
      exact h.2.2.2.1 j hj'
  · intro j hj
    have hj' : (s.fr.set (i + 1) true)[j + 2]? = some true := hj
    show (s.fr.set (i + 1) true)[j + 1]? = _
    rw [List.getElem?_set] at hj' ⊢
    by_cases hij : i + 1 = j + 1
    · rw [if_pos hij, if_pos (by have := h.2.1; omega)]
    · rw [if_neg hij]
      by_cases hij2 : i + 1 = j + 2
      · rcases hprev with rfl | hp
        · omega
        · have : i = j + 1 := by omega
          rw [← this]; exact hp
      · rw [if_neg hij2] at hj'
        exact h.2.2.2.2 j hj'

private theorem sodix_loop (m : Nat) : ∀ (i : Nat) (s : BfState V), SInv solve n zero s → i + m < n →
    (∀ j, j < i → s.fr[j + 1]? = some true) → ∀ k,
    SInv solve n zero (applyBf ((sodixActs solve ((List.range' i m).map (· + 1)) s).take k) s) := by
  induction m with
  | zero => intro i s hs _ _ k; simpa [sodixActs, applyBf] using hs
  | succ m ih =>
    intro i s hs hin hj k
    rw [List.range'_succ, List.map_cons]
    unfold sodixActs
    have hprev : i = 0 ∨ s.fr[i]? = some true := by
      cases i with
      | zero => exact Or.inl rfl
      | succ i => exact Or.inr (hj i (by omega))
    split
    · rename_i hf
      simp only [Nat.add_sub_cancel]
      have hb := sInv_both solve n zero hs (i := i) (by omega) hf hprev
      match k with
      | 0 => simpa [applyBf] using hs
      | 1 => exact sInv_setAc solve n zero hs _ hf
      | k + 2 =>
        refine ih (i + 1) _ hb (by omega) ?_ k
        intro j hji
        show (s.fr.set (i + 1) true)[j + 1]? = _
        rw [List.getElem?_set]
        by_cases hij : i + 1 = j + 1
        · rw [if_pos hij, if_pos (by have := hs.2.1; omega)]
        · rw [if_neg hij]; exact hj j (by omega)
    · rename_i hf
      refine ih (i + 1) s hs (by omega) ?_ k
      intro j hji
      by_cases hij : j = i
      · subst hij
        have hl := hs.2.1
        rw [List.getElem?_eq_getElem (by omega)] at hf ⊢
        cases hb : s.fr[j + 1] with
        | true => rfl
        | false => rw [hb] at hf; exact absurd rfl hf
      · exact hj j (by omega)

private theorem sodix_mono (l : List Nat) : ∀ (s : BfState V) (i : Nat), s.fr[i]? = some true →
    (applyBf (sodixActs solve l s) s).fr[i]? = some true := by
  induction l with
  | nil => intro s i h; simpa [sodixActs, applyBf] using h
  | cons a l ih =>
    intro s i h
    unfold sodixActs
    split
    · rename_i hf
      refine ih _ i ?_
      show (s.fr.set a true)[i]? = _
      rw [List.getElem?_set]
      by_cases hai : a = i
      · rw [hai, h] at hf; simp at hf
      · rw [if_neg hai]; exact h
    · exact ih s i h

private theorem sodix_done (l : List Nat) : ∀ (s : BfState V), s.fr.length = n → (∀ i ∈ l, i < n) → ∀ i ∈ l,
    (applyBf (sodixActs solve l s) s).fr[i]? = some true := by
  induction l with
  | nil => intro s _ _ i h; simp at h
  | cons a l ih =>
    intro s hl hlt i hi
    have ha := hlt a List.mem_cons_self
    unfold sodixActs
    split
    · rename_i hf
      simp only
      rw [applyBf_append]
      rcases List.mem_cons.1 hi with rfl | hi
      · apply sodix_mono
        show (s.fr.set i true)[i]? = _
        rw [List.getElem?_set, if_pos rfl, if_pos (by omega)]
      · exact ih _ (by simp [applyBf, BfAct.apply, hl]) (fun j hj => hlt j (List.mem_cons_of_mem _ hj)) i hi
    · rename_i hf
      rcases List.mem_cons.1 hi with rfl | hi
      · apply sodix_mono
        rw [List.getElem?_eq_getElem (by omega)] at hf ⊢
        cases hb : s.fr[i] with
        | true => rfl
        | false => rw [hb] at hf; exact absurd rfl hf
      · exact ih s hl (fun j hj => hlt j (List.mem_cons_of_mem _ hj)) i hi

private theorem foldl_max_spec (l : List Nat) : ∀ a, a ≤ l.foldl max a ∧ (∀ i ∈ l, i ≤ l.foldl max a) ∧
    (l.foldl max a = a ∨ l.foldl max a ∈ l) := by
  induction l with
  | nil => intro a; simp
  | cons x l ih =>
    intro a
    obtain ⟨h1, h2, h3⟩ := ih (max a x)
    rw [List.foldl_cons]
    refine ⟨by omega, ?_, ?_⟩
    · intro i hi
      rcases List.mem_cons.1 hi with rfl | hi
      · omega
      · exact h2 i hi
    · rcases h3 with h3 | h3
      · rcases Nat.le_total a x with h | h
        · right; rw [h3, Nat.max_eq_right h]; exact List.mem_cons_self
        · left; rw [h3, Nat.max_eq_left h]
      · right; exact List.mem_cons_of_mem _ h3

private theorem sodix_ok : CalcOk (fun ind s => sodixActs solve (sodixRange ind) s) (sodixValue solve zero) n zero
    (fun i => i ≠ 0) (SInv solve n zero) where
  init := by
    have hf : ∀ i : Nat, (List.replicate n false)[i]? ≠ some true := by
      intro i h
      rw [List.getElem?_replicate] at h
      split at h <;> simp at h
    exact ⟨List.length_replicate, List.length_replicate, hf 0, fun i h => absurd h (hf i), fun i h => absurd h (hf _)⟩
  len_ac := fun s h => h.1
  len_fr := fun s h => h.2.1
  right := fun s h => h.2.2.2.1
  keep := by
    intro s hs ind hi k
    unfold sodixRange
    rw [List.range_eq_range']
    by_cases h0 : ind.foldl max 0 = 0
    · rw [h0]; simpa [sodixActs, applyBf] using hs
    · apply sodix_loop solve n zero _ 0 s hs
      · rcases (foldl_max_spec ind 0).2.2 with h | h
        · exact absurd h h0
        · have := hi _ h; omega
      · intro j hj; omega
  done := by
    intro s hs ind hi i hin hi0 h
    rcases h with h | h
    · apply sodix_done solve n _ s hs.2.1
      · intro j hj
        unfold sodixRange at hj
        rw [List.mem_map] at hj
        obtain ⟨x, hx, rfl⟩ := hj
        rw [List.mem_range] at hx
        rcases (foldl_max_spec ind 0).2.2 with h2 | h2
        · omega
        · have := hi _ h2; omega
      · unfold sodixRange
        rw [List.mem_map]
        refine ⟨i - 1, ?_, by omega⟩
        rw [List.mem_range]
        have := (foldl_max_spec ind 0).2.1 i h
        omega
    · exact sodix_mono solve _ s i h

/-- **C21, partial.** `BeamformerSODIX`, whose lines depend on each other, also gives answers that do not depend on
the history of requests and interruptions: line `i ≥ 1` is always the one obtained by solving lines `1, …, i` one after
the other.  (Keys that contain line 0 are excluded: that line is never computed, see below.) -/
theorem C21_sodix_partial (history : List (CacheMode × List BfKey × Nat))
    (hh : ∀ x ∈ history, ∀ k ∈ x.2.1, BfKey.valid k) (mode : CacheMode) (keys : List BfKey) (hv : ∀ k ∈ keys, k.valid)
    (answers : List (Except PyErr (BfAns V)))
    (ha : (bfSession (fun ind s => sodixActs solve (sodixRange ind) s) mode n zero keys
      (bfHistory (fun ind s => sodixActs solve (sodixRange ind) s) n zero history none)).2 = .ok answers)
    (j : Nat) (key : BfKey) (hj : keys[j]? = some key) (hk : key ≠ .int (-1)) (h0 : 0 ∉ key.indices n) :
    answers[j]? = some (lazyAnswer (sodixValue solve zero) n key) := by
  apply general (sodix_ok solve n zero) history hh mode keys hv answers ha j key hj _
    (fun i hi h => h0 (h ▸ hi))
  cases key with
  | int k => intro h; exact hk (by rw [h])
  | slice a b st => exact hv _ (List.mem_of_getElem? hj)

/-- The hypotheses of `C21_sodix_partial` are met: -/
example := C21_sodix_partial (fun i p => (p.getD 0 : ℚ) + i) 4 0 [(.individual, [.int 3, .int 2], 6)] (by simp [BfKey.valid]) .readonly
  [.int 2, .slice 1 none 2] (by simp [BfKey.valid]) [.ok (.line 3), .ok (.lines [1, 6])] (by decide +kernel) 1 (.slice 1 none 2) rfl (by decide) (by decide)

/-- **C21, violated.** Line 0 of SODIX is never computed: a request for it returns zeros, whatever the data. -/
theorem C21_sodix_line0_violated (hn : 0 < n) (mode : CacheMode) :
    (bfSession (fun ind s => sodixActs solve (sodixRange ind) s) mode n zero [.int 0] none).2 = .ok [.ok (.line zero)] := by
  have hs : (bfOpen mode n zero (none : BfFile V)).2 = .ok (.zeros n zero) := by cases mode <;> rfl
  have hm : missingInd n (.int 0) (BfState.zeros n zero).fr = [0] := by
    unfold missingInd BfKey.indices arangeIdx sliceIndices
    obtain ⟨m, rfl⟩ : ∃ m, n = m + 1 := ⟨n - 1, by omega⟩
    simp [BfState.zeros, List.replicate_succ, List.range_succ]
  have hg : lazyGet (fun ind s => sodixActs solve (sodixRange ind) s) n (.int 0) (BfState.zeros n zero)
      = ([], .ok (.line zero)) := by
    unfold lazyGet
    simp only [hm]
    obtain ⟨m, rfl⟩ : ∃ m, n = m + 1 := ⟨n - 1, by omega⟩
    simp [sodixRange, sodixActs, applyBf, BfState.zeros, getItem, List.replicate_succ]
  unfold bfSession
  rcases ho : bfOpen mode n zero (none : BfFile V) with ⟨acts, r⟩
  rw [ho] at hs
  simp only at hs
  subst hs
  simp only [lazyRequests, hg]

end Sodix

example : (bfSession (fun ind _ => calcActs (fun i => (i : ℚ) + 1) ind) .readonly 4 0 [.int 2, .slice 0 none 2]
    (bfHistory (fun ind _ => calcActs (fun i => (i : ℚ) + 1) ind) 4 0 [(.individual, [.int 3, .int 2], 5)] none)).2
    = .ok [.ok (.line 3), .ok (.lines [1, 3])] := by decide +kernel

example : (bfSession (fun ind s => sodixActs (fun i p => (p.getD 0 : ℚ) + i) (sodixRange ind) s) .readonly 4 0 [.int 2, .slice 1 none 2]
    (bfHistory (fun ind s => sodixActs (fun i p => (p.getD 0 : ℚ) + i) (sodixRange ind) s) 4 0 [(.individual, [.int 3, .int 2], 6)]
      none)).2
    = .ok [.ok (.line 3), .ok (.lines [1, 6])] := by decide +kernel

end Acoular
