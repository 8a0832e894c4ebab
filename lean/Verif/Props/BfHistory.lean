import Verif.Model.BfHistory
import Mathlib.Data.List.Induction

/-!
# Property theorems: beamformers whose settings change between requests (C142)
-/

namespace Acoular

set_option linter.unusedSectionVars false

variable {S N V : Type} [DecidableEq N] [DecidableEq S]

/-- Specification: the settings of object `j` are those assigned last. -/
def Spec.lastSettings (sets : ℕ → S) (ops : List (BfOp S)) (j : ℕ) : S :=
  ops.foldl (fun s op => match op with
    | .change k t => if k = j then t else s
    | _ => s) (sets j)

open Spec

/-- Specification: since the last time `bf.result` of object `j` was read its settings have not been assigned and the process is the same. -/
def Spec.upToDate (ops : List (BfOp S)) (j : ℕ) : Bool :=
  ops.foldl (fun b op => match op with
    | .change k _ => if k = j then false else b
    | .request k _ | .hold k => if k = j then true else b
    | .restart | .died _ _ => false
    | _ => b) false

/-- Specification: results kept by the user are used only before settings are changed. -/
def Spec.HeldInTime (ops : List (BfOp S)) : Prop :=
  ∀ pre j i post, ops = pre ++ .held j i :: post → upToDate pre j = true

/-- Specification: equal names of the nodes imply equal results (what C127 is about). -/
def Spec.NodeDetermines (c : BfCode S N V) : Prop :=
  ∀ s t, c.node s = c.node t → c.lines s = c.lines t ∧ ∀ i, c.line s s i = c.line t t i

/-- Specification: the mode `overwrite` is never used. -/
def Spec.NeverOverwrite (mode : CacheMode) (ops : List (BfOp S)) : Prop :=
  mode ≠ .overwrite ∧ BfOp.setMode .overwrite ∉ ops

private structure Inv (c : BfCode S N V) (w : BfWorld S N V) (owner : ℕ → N) : Prop where
  file : ∀ d id, w.file d = some id → owner id = d ∧ id < w.next
  fresh : ∀ j, (w.objs j).fresh = true → ∃ id, (w.objs j).cur = some (id, (w.objs j).set) ∧ owner id = c.node (w.objs j).set ∧ id < w.next
  val : ∀ id l, id < w.next → (w.arrays id).fr l = true → ∀ s, c.node s = owner id → (w.arrays id).ac l = c.line s s l

private theorem inv_alloc {c : BfCode S N V} {w : BfWorld S N V} {owner : ℕ → N} (h : Inv c w owner) (j : ℕ) (a : BfArrays V)
    (ha : ∀ l, a.fr l = true → ∀ s, c.node s = c.node (w.objs j).set → a.ac l = c.line s s l) :
    Inv c (w.alloc j a) (fun u => if u = w.next then c.node (w.objs j).set else owner u) := by
  refine ⟨fun d id hd => ?_, fun k hk => ?_, fun id l hid hl s hs => ?_⟩
  · have := h.file d id hd
    exact ⟨by rw [if_neg (by omega)]; exact this.1, Nat.lt_succ_of_lt this.2⟩
  · by_cases hkj : k = j
    · subst hkj
      exact ⟨w.next, by simp [BfWorld.alloc], by simp [BfWorld.alloc], by simp [BfWorld.alloc]⟩
    · have e : (w.alloc j a).objs k = w.objs k := by simp [BfWorld.alloc, hkj]
      rw [e] at hk ⊢
      obtain ⟨id, h1, h2, h3⟩ := h.fresh k hk
      exact ⟨id, h1, by rw [if_neg (by omega)]; exact h2, Nat.lt_succ_of_lt h3⟩
  · simp only [BfWorld.alloc] at hid hl ⊢
    by_cases hn : id = w.next
    · simp only [hn, if_true] at hl hs ⊢
      exact ha l hl s hs
    · simp only [if_neg hn] at hl hs ⊢
      exact h.val id l (by omega) hl s hs

private theorem inv_unlink {c : BfCode S N V} {w : BfWorld S N V} {owner : ℕ → N} (h : Inv c w owner) (d : N) : Inv c (w.unlink d) owner := by
  unfold BfWorld.unlink
  cases hd : w.file d with
  | none => exact h
  | some id =>
    refine ⟨fun d' id' hd' => ?_, h.fresh, h.val⟩
    simp only at hd'
    split at hd'
    · cases hd'
    · exact h.file d' id' hd'

private theorem unlink_objs (w : BfWorld S N V) (d : N) : (w.unlink d).objs = w.objs ∧ (w.unlink d).mode = w.mode := by
  unfold BfWorld.unlink
  cases w.file d <;> exact ⟨rfl, rfl⟩

private theorem zero_ok (c : BfCode S N V) (d : N) : ∀ l, (⟨fun _ => c.zero, fun _ => false⟩ : BfArrays V).fr l = true → ∀ s, c.node s = d →
    (⟨fun _ => c.zero, fun _ => false⟩ : BfArrays V).ac l = c.line s s l := by
  intro l hl
  cases hl

private theorem alloc_set (w : BfWorld S N V) (j : ℕ) (a : BfArrays V) (k : ℕ) : ((w.alloc j a).objs k).set = (w.objs k).set := by
  unfold BfWorld.alloc
  by_cases h : k = j
  · simp [h]
  · simp [h]

private theorem inv_openFile {c : BfCode S N V} {w : BfWorld S N V} {owner : ℕ → N} (h : Inv c w owner) (j : ℕ) :
    (∃ owner', Inv c (w.openFile c j) owner') ∧ ((w.openFile c j).objs j).fresh = true ∧
      ∀ k, ((w.openFile c j).objs k).set = (w.objs k).set := by
  have key : ∀ w1 : BfWorld S N V, Inv c w1 owner → w1.objs = w.objs →
      (let d := c.node (w.objs j).set
       let r := match w1.file d with
        | some id =>
          if w1.mode = .readonly then w1.alloc j (w1.arrays id)
          else { w1 with objs := fun u => if u = j then { w1.objs j with cur := some (id, (w1.objs j).set), fresh := true } else w1.objs u }
        | none =>
          if w1.mode = .readonly then w1.alloc j ⟨fun _ => c.zero, fun _ => false⟩
          else { w1.alloc j ⟨fun _ => c.zero, fun _ => false⟩ with file := fun u => if u = d then some w1.next else w1.file u }
       (∃ owner', Inv c r owner') ∧ (r.objs j).fresh = true ∧ ∀ k, (r.objs k).set = (w.objs k).set) := by
    intro w1 h1 ho
    simp only
    rw [← ho]
    cases hd : w1.file (c.node (w1.objs j).set) with
    | some id =>
      obtain ⟨hown, hlt⟩ := h1.file _ _ hd
      simp only
      split
      · refine ⟨⟨_, inv_alloc h1 j _ fun l hl s hs => h1.val id l hlt hl s (by rw [hs, hown])⟩, by simp [BfWorld.alloc], fun k => alloc_set _ _ _ _⟩
      · refine ⟨⟨owner, ⟨h1.file, fun k hk => ?_, h1.val⟩⟩, by simp, fun k => ?_⟩
        · by_cases hkj : k = j
          · subst hkj
            exact ⟨id, by simp, by simpa using hown, hlt⟩
          · simp only [if_neg hkj] at hk ⊢
            exact h1.fresh k hk
        · by_cases hkj : k = j
          · simp [hkj]
          · simp [hkj]
    | none =>
      have ha := inv_alloc h1 j ⟨fun _ => c.zero, fun _ => false⟩ (zero_ok c _)
      simp only
      split
      · exact ⟨⟨_, ha⟩, by simp [BfWorld.alloc], fun k => alloc_set _ _ _ _⟩
      · refine ⟨⟨_, ⟨fun d id hdd => ?_, ha.fresh, ha.val⟩⟩, by simp [BfWorld.alloc], fun k => alloc_set w1 j ⟨fun _ => c.zero, fun _ => false⟩ k⟩
        simp only at hdd
        split at hdd
        · rename_i hde
          cases hdd
          exact ⟨by simp [hde], by simp [BfWorld.alloc]⟩
        · exact ha.file d id hdd
  unfold BfWorld.openFile
  simp only
  by_cases hm : w.mode = .overwrite
  · have := key (w.unlink (c.node (w.objs j).set)) (inv_unlink h _) (unlink_objs _ _).1
    rw [if_pos hm]
    exact this
  · rw [if_neg hm]
    exact key w h rfl

private theorem inv_open {c : BfCode S N V} {w : BfWorld S N V} {owner : ℕ → N} (h : Inv c w owner) (j : ℕ) :
    (∃ owner', Inv c (w.openResult c j) owner') ∧ ((w.openResult c j).objs j).fresh = true ∧
      ∀ k, ((w.openResult c j).objs k).set = (w.objs k).set := by
  unfold BfWorld.openResult
  split
  · rename_i hf
    exact ⟨⟨owner, h⟩, hf, fun _ => rfl⟩
  · split
    · exact ⟨⟨_, inv_alloc h j _ (zero_ok c _)⟩, by simp [BfWorld.alloc], fun k => alloc_set _ _ _ _⟩
    · exact inv_openFile h j

private theorem inv_write {c : BfCode S N V} (hc : NodeDetermines c) {w : BfWorld S N V} {owner : ℕ → N} (h : Inv c w owner) (id i : ℕ) (s : S)
    (ho : owner id = c.node s) (b : ℕ → Bool) (hb : ∀ l, l ≠ i → b l = true → (w.arrays id).fr l = true) :
    Inv c { w with arrays := fun u => if u = id then ⟨fun l => if l = i then c.line s s i else (w.arrays id).ac l, b⟩ else w.arrays u } owner := by
  refine ⟨h.file, h.fresh, fun id' l hid hl t ht => ?_⟩
  by_cases he : id' = id
  · subst he
    simp only [if_true] at hl ⊢
    by_cases hli : l = i
    · subst hli
      simp only [if_true]
      exact (hc s t (by rw [ht, ho])).2 l
    · simp only [if_neg hli]
      exact h.val id' l hid (hb l hli hl) t ht
  · simp only [if_neg he] at hl ⊢
    exact h.val id' l hid hl t ht

private theorem inv_getItem {c : BfCode S N V} (hc : NodeDetermines c) {w : BfWorld S N V} {owner : ℕ → N} (h : Inv c w owner) (j i : ℕ)
    (hf : (w.objs j).fresh = true) : Inv c (w.getItem c j i).1 owner ∧ (w.getItem c j i).1.objs = w.objs ∧
      ((w.getItem c j i).2 = some (.ok (c.line (w.objs j).set (w.objs j).set i)) ∧ i < c.lines (w.objs j).set ∨
       (w.getItem c j i).2 = some (.error .indexError) ∧ c.lines (w.objs j).set ≤ i ∨
       (w.getItem c j i).2 = some (.error .runtimeError) ∧ c.tables = true ∧ ∃ id, w.removed id = true) := by
  obtain ⟨id, h1, h2, h3⟩ := h.fresh j hf
  unfold BfWorld.getItem
  rw [h1]
  simp only
  by_cases hr : (c.tables && w.removed id) = true
  · rw [if_pos hr]
    simp only [Bool.and_eq_true] at hr
    exact ⟨h, rfl, .inr (.inr ⟨rfl, hr.1, id, hr.2⟩)⟩
  rw [if_neg hr]
  by_cases hl : c.lines (w.objs j).set ≤ i
  · rw [if_pos hl]
    exact ⟨h, rfl, .inr (.inl ⟨rfl, hl⟩)⟩
  rw [if_neg hl]
  by_cases hfr : (w.arrays id).fr i = true
  · rw [if_pos hfr]
    exact ⟨h, rfl, .inl ⟨by rw [h.val id i h3 hfr _ h2.symm], by omega⟩⟩
  rw [if_neg hfr]
  refine ⟨inv_write hc h id i _ h2 _ fun l hli hb => by simpa [hli] using hb, rfl, .inl ⟨rfl, by omega⟩⟩

private theorem inv_brokenItem {c : BfCode S N V} (hc : NodeDetermines c) {w : BfWorld S N V} {owner : ℕ → N} (h : Inv c w owner) (j i : ℕ)
    (hf : (w.objs j).fresh = true) : Inv c (w.brokenItem c j i) owner ∧ (w.brokenItem c j i).objs = w.objs := by
  obtain ⟨id, h1, h2, h3⟩ := h.fresh j hf
  unfold BfWorld.brokenItem
  rw [h1]
  simp only
  split
  · exact ⟨h, rfl⟩
  · exact ⟨inv_write hc h id i _ h2 _ fun l _ hb => hb, rfl⟩

private theorem inv_forget {c : BfCode S N V} {w : BfWorld S N V} {owner : ℕ → N} (h : Inv c w owner) : Inv c w.forget owner :=
  ⟨h.file, fun j hj => (by cases hj), h.val⟩

private theorem run_append (c : BfCode S N V) (w : BfWorld S N V) (a : List (BfOp S)) (op : BfOp S) :
    w.run c (a ++ [op]) = ((w.run c a).step c op).1 := by
  simp [BfWorld.run, List.foldl_append]

private theorem openFile_fresh (c : BfCode S N V) (w : BfWorld S N V) (k j : ℕ) (h : (w.objs j).fresh = true) :
    ((w.openFile c k).objs j).fresh = true := by
  unfold BfWorld.openFile
  simp only
  have ho : (if w.mode = .overwrite then w.unlink (c.node (w.objs k).set) else w).objs = w.objs := by
    split
    · exact (unlink_objs _ _).1
    · rfl
  generalize (if w.mode = .overwrite then w.unlink (c.node (w.objs k).set) else w) = w1 at ho ⊢
  rw [← ho] at h
  have : ∀ a, ((w1.alloc k a).objs j).fresh = true := by
    intro a
    unfold BfWorld.alloc
    by_cases hk : j = k
    · simp [hk]
    · simp [hk, h]
  cases w1.file (c.node (w.objs k).set) with
  | some id =>
    simp only
    split
    · exact this _
    · by_cases hk : j = k
      · simp [hk]
      · simp [hk, h]
  | none =>
    simp only
    split
    · exact this _
    · exact this ⟨fun _ => c.zero, fun _ => false⟩

private theorem open_fresh (c : BfCode S N V) (w : BfWorld S N V) (k j : ℕ) (h : (w.objs j).fresh = true) :
    ((w.openResult c k).objs j).fresh = true := by
  unfold BfWorld.openResult
  split
  · exact h
  · split
    · unfold BfWorld.alloc
      by_cases hk : j = k
      · simp [hk]
      · simp [hk, h]
    · exact openFile_fresh c w k j h

private theorem open_keep (c : BfCode S N V) (w : BfWorld S N V) (k : ℕ) (hm : w.mode ≠ .overwrite) (hr : ∀ id, w.removed id = false) :
    (w.openResult c k).mode ≠ .overwrite ∧ ∀ id, (w.openResult c k).removed id = false := by
  unfold BfWorld.openResult BfWorld.openFile
  simp only [if_neg hm]
  split
  · exact ⟨hm, hr⟩
  · split
    · exact ⟨hm, hr⟩
    · split <;> split <;> exact ⟨hm, hr⟩

private theorem getItem_keep (c : BfCode S N V) (w : BfWorld S N V) (j i : ℕ) :
    (w.getItem c j i).1.mode = w.mode ∧ (w.getItem c j i).1.removed = w.removed := by
  unfold BfWorld.getItem
  split
  · exact ⟨rfl, rfl⟩
  · split
    · exact ⟨rfl, rfl⟩
    · split
      · exact ⟨rfl, rfl⟩
      · split <;> exact ⟨rfl, rfl⟩

private theorem brokenItem_keep (c : BfCode S N V) (w : BfWorld S N V) (j i : ℕ) :
    (w.brokenItem c j i).mode = w.mode ∧ (w.brokenItem c j i).removed = w.removed := by
  unfold BfWorld.brokenItem
  split
  · exact ⟨rfl, rfl⟩
  · split <;> exact ⟨rfl, rfl⟩

/-- After a history: invariant, settings, and who may use a result obtained before. -/
private theorem history_inv {c : BfCode S N V} (hc : NodeDetermines c) (sets : ℕ → S) (mode : CacheMode) (ops : List (BfOp S))
    (hh : HeldInTime ops) : (∃ owner, Inv c ((BfWorld.init c sets mode).run c ops) owner) ∧
      (∀ j, (((BfWorld.init c sets mode).run c ops).objs j).set = lastSettings sets ops j) ∧
      ∀ j, upToDate ops j = true → (((BfWorld.init c sets mode).run c ops).objs j).fresh = true := by
  induction ops using List.reverseRecOn with
  | nil =>
    by_cases hN : Nonempty N
    · obtain ⟨d⟩ := hN
      exact ⟨⟨fun _ => d, ⟨fun _ _ h => (by cases h), fun _ h => (by cases h), fun _ _ h => absurd h (Nat.not_lt_zero _)⟩⟩, fun _ => rfl,
        fun _ h => (by cases h)⟩
    · exact absurd ⟨c.node (sets 0)⟩ hN
  | append_singleton ops op ih =>
    obtain ⟨⟨owner, hI⟩, hS, hF⟩ := ih fun pre j i post e => hh pre j i (post ++ [op]) (by rw [e]; simp)
    rw [run_append]
    generalize hw : (BfWorld.init c sets mode).run c ops = w at hI hS hF ⊢
    have hls : ∀ j, lastSettings sets (ops ++ [op]) j = (match op with | .change k t => if k = j then t else lastSettings sets ops j | _ => lastSettings sets ops j) := by
      intro j
      simp only [lastSettings, List.foldl_append, List.foldl_cons, List.foldl_nil]
      cases op <;> rfl
    have hup : ∀ j, upToDate (ops ++ [op]) j = (match op with
      | .change k _ => if k = j then false else upToDate ops j
      | .request k _ | .hold k => if k = j then true else upToDate ops j
      | .restart | .died _ _ => false
      | _ => upToDate ops j) := by
      intro j
      simp only [upToDate, List.foldl_append, List.foldl_cons, List.foldl_nil]
      cases op <;> rfl
    cases op with
    | change k t =>
      simp only [BfWorld.step]
      by_cases ht : t = (w.objs k).set
      · rw [if_pos ht]
        refine ⟨⟨owner, hI⟩, fun j => ?_, fun j hj => ?_⟩
        · rw [hls]
          by_cases hk : k = j
          · subst hk; simp [ht]
          · simp [hk, hS]
        · rw [hup] at hj
          by_cases hk : k = j
          · simp [hk] at hj
          · exact hF j (by simpa [hk] using hj)
      · rw [if_neg ht]
        refine ⟨⟨owner, ⟨hI.file, fun j hj => ?_, hI.val⟩⟩, fun j => ?_, fun j hj => ?_⟩
        · by_cases hk : j = k
          · simp [hk] at hj
          · simp only [if_neg hk] at hj ⊢
            exact hI.fresh j hj
        · rw [hls]
          by_cases hk : j = k
          · simp [hk]
          · simp [hk, Ne.symm hk, hS]
        · rw [hup] at hj
          by_cases hk : j = k
          · simp [hk] at hj
          · simp only [if_neg hk]
            exact hF j (by simpa [Ne.symm hk] using hj)
    | setCached k b =>
      refine ⟨⟨owner, ⟨hI.file, fun j hj => ?_, hI.val⟩⟩, fun j => ?_, fun j hj => ?_⟩
      · by_cases hk : j = k
        · subst hk
          simp only [BfWorld.step, if_true] at hj ⊢
          exact hI.fresh j hj
        · simp only [BfWorld.step, if_neg hk] at hj ⊢
          exact hI.fresh j hj
      · rw [hls]
        by_cases hk : j = k
        · subst hk; simp [BfWorld.step, hS]
        · simp [BfWorld.step, hk, hS]
      · rw [hup] at hj
        by_cases hk : j = k
        · subst hk; simpa [BfWorld.step] using hF j hj
        · simpa [BfWorld.step, hk] using hF j hj
    | setMode m =>
      exact ⟨⟨owner, ⟨hI.file, hI.fresh, hI.val⟩⟩, fun j => by rw [hls]; exact hS j, fun j hj => hF j (by rw [hup] at hj; exact hj)⟩
    | request k i =>
      obtain ⟨⟨o', h1⟩, h2, h3⟩ := inv_open (c := c) hI k
      obtain ⟨h4, h5, -⟩ := inv_getItem hc h1 k i h2
      refine ⟨⟨o', h4⟩, fun j => ?_, fun j hj => ?_⟩
      · rw [hls]
        simp only [BfWorld.step]
        rw [h5, h3, hS]
      · rw [hup] at hj
        simp only [BfWorld.step]
        rw [h5]
        by_cases hk : k = j
        · exact hk ▸ h2
        · exact open_fresh c w k j (hF j (by simpa [hk] using hj))
    | hold k =>
      obtain ⟨⟨o', h1⟩, h2, h3⟩ := inv_open (c := c) hI k
      refine ⟨⟨o', h1⟩, fun j => ?_, fun j hj => ?_⟩
      · rw [hls]
        simp only [BfWorld.step]
        rw [h3, hS]
      · rw [hup] at hj
        simp only [BfWorld.step]
        by_cases hk : k = j
        · exact hk ▸ h2
        · exact open_fresh c w k j (hF j (by simpa [hk] using hj))
    | held k i =>
      have hk := hF k (hh ops k i [] rfl)
      obtain ⟨h4, h5, -⟩ := inv_getItem hc hI k i hk
      refine ⟨⟨owner, h4⟩, fun j => ?_, fun j hj => ?_⟩
      · rw [hls]
        simp only [BfWorld.step]
        rw [h5, hS]
      · rw [hup] at hj
        simp only [BfWorld.step]
        rw [h5]
        exact hF j hj
    | restart =>
      exact ⟨⟨owner, inv_forget hI⟩, fun j => by rw [hls]; exact hS j, fun j hj => by rw [hup] at hj; cases hj⟩
    | died k i =>
      obtain ⟨⟨o', h1⟩, h2, h3⟩ := inv_open (c := c) hI k
      obtain ⟨h4, h5⟩ := inv_brokenItem hc h1 k i h2
      refine ⟨⟨o', inv_forget h4⟩, fun j => ?_, fun j hj => by rw [hup] at hj; cases hj⟩
      rw [hls]
      simp only [BfWorld.step, BfWorld.forget]
      rw [h5, h3, hS]

/-- No node is removed as long as the mode is not `overwrite`. -/
private theorem keep_removed (c : BfCode S N V) (sets : ℕ → S) (mode : CacheMode) (ops : List (BfOp S)) (h : NeverOverwrite mode ops) :
    ((BfWorld.init c sets mode).run c ops).mode ≠ .overwrite ∧ ∀ id, ((BfWorld.init c sets mode).run c ops).removed id = false := by
  induction ops using List.reverseRecOn with
  | nil => exact ⟨h.1, fun _ => rfl⟩
  | append_singleton ops op ih =>
    obtain ⟨hm, hr⟩ := ih ⟨h.1, fun e => h.2 (List.mem_append_left _ e)⟩
    rw [run_append]
    generalize (BfWorld.init c sets mode).run c ops = w at hm hr ⊢
    have hop : BfOp.setMode .overwrite ≠ op := fun e => h.2 (by simp [e])
    cases op with
    | change k t =>
      simp only [BfWorld.step]
      split <;> exact ⟨hm, hr⟩
    | setCached k b => exact ⟨hm, hr⟩
    | setMode m => exact ⟨fun e => hop (by rw [show m = .overwrite from e]), hr⟩
    | request k i =>
      have := open_keep c w k hm hr
      have h2 := getItem_keep c (w.openResult c k) k i
      exact ⟨by simp only [BfWorld.step]; rw [h2.1]; exact this.1, fun id => by simp only [BfWorld.step]; rw [h2.2]; exact this.2 id⟩
    | hold k => exact open_keep c w k hm hr
    | held k i =>
      have h2 := getItem_keep c w k i
      exact ⟨by simp only [BfWorld.step]; rw [h2.1]; exact hm, fun id => by simp only [BfWorld.step]; rw [h2.2]; exact hr id⟩
    | restart => exact ⟨hm, hr⟩
    | died k i =>
      have := open_keep c w k hm hr
      have h2 := brokenItem_keep c (w.openResult c k) k i
      exact ⟨by simp only [BfWorld.step, BfWorld.forget]; rw [h2.1]; exact this.1,
        fun id => by simp only [BfWorld.step, BfWorld.forget]; rw [h2.2]; exact this.2 id⟩

/-- **C142, partial** After every history of changes of settings, flags and modes, requests by any of the objects, new processes and
processes that died in a calculation, `bf.result[i]` is line `i` calculated with the settings the object has now. (With PyTables it may
fail, see `C142_available`; results kept from before a change of settings are excluded, see `C142_held_violated`.) -/
theorem C142_current_partial (c : BfCode S N V) (hc : NodeDetermines c) (sets : ℕ → S) (mode : CacheMode) (ops : List (BfOp S))
    (hh : HeldInTime ops) (j i : ℕ) (r : Except PyErr V)
    (hr : (((BfWorld.init c sets mode).run c ops).step c (.request j i)).2 = some r) :
    let s := lastSettings sets ops j
    r = .ok (c.line s s i) ∧ i < c.lines s ∨ r = .error .indexError ∧ c.lines s ≤ i ∨ r = .error .runtimeError ∧ c.tables = true := by
  obtain ⟨⟨owner, hI⟩, hS, -⟩ := history_inv hc sets mode ops hh
  obtain ⟨⟨o', h1⟩, h2, h3⟩ := inv_open (c := c) hI j
  obtain ⟨-, -, h4⟩ := inv_getItem hc h1 j i h2
  simp only [BfWorld.step] at hr
  rw [h3, hS, hr] at h4
  rcases h4 with ⟨h4, h5⟩ | ⟨h4, h5⟩ | ⟨h4, h5, -⟩ <;> simp only [Option.some.injEq] at h4
  · exact .inl ⟨h4, h5⟩
  · exact .inr (.inl ⟨h4, h5⟩)
  · exact .inr (.inr ⟨h4, h5⟩)

/-- **C142, partial** The same for results kept by the user, as long as the settings have not been assigned since. -/
theorem C142_held_partial (c : BfCode S N V) (hc : NodeDetermines c) (sets : ℕ → S) (mode : CacheMode) (ops : List (BfOp S))
    (hh : HeldInTime ops) (j i : ℕ) (hu : upToDate ops j = true) (r : Except PyErr V)
    (hr : (((BfWorld.init c sets mode).run c ops).step c (.held j i)).2 = some r) :
    let s := lastSettings sets ops j
    r = .ok (c.line s s i) ∧ i < c.lines s ∨ r = .error .indexError ∧ c.lines s ≤ i ∨ r = .error .runtimeError ∧ c.tables = true := by
  obtain ⟨⟨owner, hI⟩, hS, hF⟩ := history_inv hc sets mode ops hh
  obtain ⟨-, -, h4⟩ := inv_getItem hc hI j i (hF j hu)
  simp only [BfWorld.step] at hr
  rw [hS, hr] at h4
  rcases h4 with ⟨h4, h5⟩ | ⟨h4, h5⟩ | ⟨h4, h5, -⟩ <;> simp only [Option.some.injEq] at h4
  · exact .inl ⟨h4, h5⟩
  · exact .inr (.inl ⟨h4, h5⟩)
  · exact .inr (.inr ⟨h4, h5⟩)

/-- **C142** Every request for a line that exists is answered: always with h5py, and with PyTables if the mode `overwrite` is not used. -/
theorem C142_available (c : BfCode S N V) (hc : NodeDetermines c) (sets : ℕ → S) (mode : CacheMode) (ops : List (BfOp S))
    (hh : HeldInTime ops) (hl : c.tables = false ∨ NeverOverwrite mode ops) (j i : ℕ) (hi : i < c.lines (lastSettings sets ops j)) :
    (((BfWorld.init c sets mode).run c ops).step c (.request j i)).2 =
      some (.ok (c.line (lastSettings sets ops j) (lastSettings sets ops j) i)) := by
  obtain ⟨⟨owner, hI⟩, hS, -⟩ := history_inv hc sets mode ops hh
  obtain ⟨⟨o', h1⟩, h2, h3⟩ := inv_open (c := c) hI j
  obtain ⟨-, -, h4⟩ := inv_getItem hc h1 j i h2
  rw [h3, hS] at h4
  rcases h4 with ⟨h4, -⟩ | ⟨-, h5⟩ | ⟨-, h5, id, h6⟩
  · exact h4
  · omega
  · rcases hl with hl | hl
    · rw [hl] at h5; cases h5
    · obtain ⟨k1, k2⟩ := keep_removed c sets mode ops hl
      rw [(open_keep c _ j k1 k2).2 id] at h6
      cases h6

/-! ## Where it fails -/

/-- **C142, violated.** `res = bf.result`, then a setting is changed, then `res[i]`: the line is calculated with the new settings (but the old
frequencies) and stored under the name of the old ones. A later process with the old settings is given this line. -/
theorem C142_held_violated (c : BfCode S N V) (a b : S) (hn : c.node a ≠ c.node b) (i : ℕ) (hi : i < c.lines a) (j : ℕ) :
    let w := (BfWorld.init c (fun _ => a) .individual).run c [.hold j, .change j b, .held j i, .restart, .change j a]
    (w.objs j).set = a ∧ (w.step c (.request j i)).2 = some (.ok (c.line a b i)) := by
  have hab : b ≠ a := fun e => hn (by rw [e])
  have hle : ¬ c.lines a ≤ i := by omega
  simp [BfWorld.run, BfWorld.step, BfWorld.openResult, BfWorld.openFile, BfWorld.init, BfWorld.alloc, BfWorld.getItem, BfWorld.forget, hab,
    hab.symm, hle]

/-- **C142, violated.** With PyTables and the mode `overwrite`: two objects with the same settings are asked in turn; the second one replaces
the node, and the first one raises when asked again. -/
theorem C142_overwrite_violated (c : BfCode S N V) (ht : c.tables = true) (s : S) (i : ℕ) (hi : i < c.lines s) :
    let w := (BfWorld.init c (fun _ => s) .overwrite).run c [.request 0 i, .request 1 i]
    (w.step c (.request 0 i)).2 = some (.error .runtimeError) := by
  have hle : ¬ c.lines s ≤ i := by omega
  simp [BfWorld.run, BfWorld.step, BfWorld.openResult, BfWorld.openFile, BfWorld.init, BfWorld.alloc, BfWorld.getItem, BfWorld.unlink, ht, hle]

/-! ## Instances -/

/-- Settings: diagonal removal and a number; the frequency enters with the settings at the time of opening. -/
private def codeEx (tables : Bool) : BfCode (Bool × ℕ) (Bool × ℕ) ℕ where
  node := id
  lines := fun _ => 4
  line := fun s0 s i => 100 * s0.2 + 10 * s.2 + (if s.1 then 1 else 0) + i
  zero := 0
  tables := tables

private theorem codeEx_determines (t : Bool) : NodeDetermines (codeEx t) := by
  intro s u h
  cases h
  exact ⟨rfl, fun _ => rfl⟩

private def opsEx : List (BfOp (Bool × ℕ)) :=
  [.request 0 2, .change 0 (true, 2), .request 1 2, .hold 0, .held 0 2, .died 1 3, .setMode .readonly, .change 1 (true, 2)]

private theorem opsEx_inTime : HeldInTime opsEx := by
  intro pre j i post h
  have hl : pre.length < 8 := by
    have := congrArg List.length h
    simp [opsEx] at this
    omega
  have hp : pre = opsEx.take pre.length := by rw [h]; simp
  have hx : opsEx[pre.length]? = some (.held j i) := by rw [h]; simp
  generalize pre.length = k at *
  subst hp
  match k, hl with
  | 4, _ => simp [opsEx] at hx; obtain ⟨rfl, -⟩ := hx; decide
  | 0, _ | 1, _ | 2, _ | 3, _ | 5, _ | 6, _ | 7, _ => simp [opsEx] at hx

/-- The hypotheses of `C142_current_partial` and `C142_available` are met: -/
example : (((BfWorld.init (codeEx true) (fun _ => (false, 1)) .individual).run (codeEx true) opsEx).step (codeEx true) (.request 1 2)).2 =
    some (.ok 223) :=
  C142_available (codeEx true) (codeEx_determines _) _ _ opsEx opsEx_inTime (.inr ⟨by decide, by simp [opsEx]⟩) 1 2 (by decide)

example := C142_current_partial (codeEx true) (codeEx_determines _) (fun _ => (false, 1)) .overwrite opsEx opsEx_inTime 1 2

/-- The hypotheses of `C142_held_partial` are met: -/
example := C142_held_partial (codeEx true) (codeEx_determines _) (fun _ => (false, 1)) .overwrite (opsEx.take 4)
  (fun pre j i post h => opsEx_inTime pre j i (post ++ opsEx.drop 4) (by
    conv_lhs => rw [← List.take_append_drop 4 opsEx, h]
    simp)) 0 3 (by decide)

/-- The hypotheses of `C142_held_violated` and `C142_overwrite_violated` are met, and the line is wrong: -/
example : ((((BfWorld.init (codeEx true) (fun _ => (false, 1)) .individual).run (codeEx true)
    [.hold 0, .change 0 (true, 2), .held 0 1, .restart, .change 0 (false, 1)]).step (codeEx true) (.request 0 1)).2 = some (.ok 122)) ∧
    (codeEx true).line (false, 1) (false, 1) 1 = 111 :=
  ⟨(C142_held_violated (codeEx true) (false, 1) (true, 2) (by decide) 1 (by decide) 0).2, rfl⟩

example := C142_overwrite_violated (codeEx true) rfl (false, 1) 1 (by decide)

end Acoular
