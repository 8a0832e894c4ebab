import Verif.Model.CacheShared
import Verif.Lemmas.Stream
import Verif.Props.Cache
import Mathlib.Data.List.Basic

/-!
# C139: several generators of one cached source at the same time
-/

namespace Acoular
open Spec

variable {α : Type}

/-- What holds for generator `g`. -/
private def GenOk (tables : Bool) (data : List α) (mode : CacheMode) (num : Nat) (nodes : List (CacheNode α)) (out : List (List α)) : CacheGen α → Prop
  | .fresh m n => m = mode ∧ n = num ∧ out = []
  | .pass rest => out ++ rest = chunks num data
  | .read n id i => n = num ∧ (∃ k, out = (chunks num data).take k ∧ i = k * num) ∧
      ∃ node, nodes[id]? = some node ∧ node.complete = some true
  | .scan n id i nb => n = num ∧ out = (chunks num data).take nb ∧ i = nb * num ∧ id < nodes.length
  | .write id rest => out ++ rest = chunks num data ∧ ∃ node, nodes[id]? = some node ∧ node.rows ++ rest.flatten = data ∧ node.complete = some false
  | .ended => out = chunks num data
  | .failed _ => out <+: chunks num data ∧ tables = true

/-- What holds after every step. -/
private structure CsInv (tables : Bool) (data : List α) (req : Nat → CacheMode × Nat) (w : CacheWorld α) : Prop where
  nodes : ∀ (id : Nat) n, w.nodes[id]? = some n → n.rows <+: data ∧ (n.complete = some true → n.rows = data)
  linked : ∀ id, w.linked = some id → id < w.nodes.length
  writers : ∀ g g' id r r', w.gen g = .write id r → w.gen g' = .write id r' → g = g'
  gens : ∀ g, GenOk tables data (req g).1 (req g).2 w.nodes (w.out g) (w.gen g)

private theorem take_succ_chunks {num : Nat} (hn : 0 < num) {data : List α} {k : Nat} (h : k * num < data.length) :
    (chunks num data).take (k + 1) = (chunks num data).take k ++ [(data.drop (k * num)).take num] := by
  have hk : k < (chunks num data).length := by
    rw [length_chunks]
    have : (k + 1) * num ≤ data.length + num - 1 := by rw [Nat.add_mul]; omega
    exact (Nat.le_div_iff_mul_le hn).2 this
  rw [List.take_succ_eq_append_getElem hk]
  simp [chunks]

private theorem slice_chunk (rows : List α) (i num : Nat) : slice rows i (i + num) = (rows.drop i).take num := by
  unfold slice
  rw [List.drop_take, Nat.add_sub_cancel_left]

private theorem take_all {num : Nat} (hn : 0 < num) {data : List α} {k : Nat} (h : data.length ≤ k * num) :
    (chunks num data).take k = chunks num data := by
  apply List.take_of_length_le
  rw [length_chunks]
  apply Nat.le_of_lt_succ
  rw [Nat.div_lt_iff_lt_mul hn, Nat.succ_mul]
  omega

/-- A step of generator `g` that ends in a good state for `g` and disturbs nobody. -/
private theorem cs_put {tables : Bool} {data : List α} {req : Nat → CacheMode × Nat} {w w' : CacheWorld α}
    (h : CsInv tables data req w) (g : Nat) (st : CacheGen α) (o : List (List α))
    (hgen : w'.gen = w.gen) (hout : w'.out = w.out)
    (hn : ∀ (id : Nat) n, w'.nodes[id]? = some n → n.rows <+: data ∧ (n.complete = some true → n.rows = data))
    (hl : ∀ id, w'.linked = some id → id < w'.nodes.length)
    (hkeep : ∀ (id : Nat) n, w.nodes[id]? = some n → w'.nodes[id]? = some n ∨ ((∃ r, w.gen g = .write id r) ∧ ∃ n', w'.nodes[id]? = some n'))
    (hw : ∀ id r, st = .write id r → (∃ r', w.gen g = .write id r') ∨ w.nodes.length ≤ id)
    (hst : GenOk tables data (req g).1 (req g).2 w'.nodes (w.out g ++ o) st) : CsInv tables data req (w'.put g st o) := by
  have hlen : ∀ id, id < w.nodes.length → id < w'.nodes.length := by
    intro id hid
    have e : w.nodes[id]? = some w.nodes[id] := List.getElem?_eq_getElem hid
    by_contra hc
    have e0 : w'.nodes[id]? = none := List.getElem?_eq_none (by omega)
    rcases hkeep id _ e with h1 | ⟨-, n', h1⟩ <;> rw [e0] at h1 <;> cases h1
  refine ⟨hn, hl, ?_, ?_⟩
  · intro u v id r r' hu hv
    simp only [CacheWorld.put, hgen] at hu hv
    have key : ∀ x rx, w.gen x = .write id rx → x ≠ g → ∀ ry, st = .write id ry → False := by
      intro x rx hx hxg ry hy
      rcases hw id ry hy with ⟨r2, h2⟩ | h2
      · exact hxg (h.writers x g id rx r2 hx h2)
      · have hxok := h.gens x
        rw [hx] at hxok
        obtain ⟨-, node, e, -⟩ := hxok
        rw [List.getElem?_eq_none h2] at e
        cases e
    by_cases hug : u = g <;> by_cases hvg : v = g
    · rw [hug, hvg]
    · rw [if_pos hug] at hu; rw [if_neg hvg] at hv
      exact (key v r' hv hvg r hu).elim
    · rw [if_neg hug] at hu; rw [if_pos hvg] at hv
      exact (key u r hu hug r' hv).elim
    · rw [if_neg hug] at hu; rw [if_neg hvg] at hv
      exact h.writers u v id r r' hu hv
  · intro u
    simp only [CacheWorld.put, hgen, hout]
    by_cases hug : u = g
    · subst hug
      rw [if_pos rfl, if_pos rfl]
      exact hst
    · rw [if_neg hug, if_neg hug]
      have hu := h.gens u
      cases hs : w.gen u with
      | fresh m n => rw [hs] at hu; exact hu
      | pass rest => rw [hs] at hu; exact hu
      | read n id i =>
        rw [hs] at hu
        obtain ⟨h1, h2, node, h3, h4⟩ := hu
        refine ⟨h1, h2, ?_⟩
        rcases hkeep id node h3 with h5 | ⟨⟨r, h5⟩, -⟩
        · exact ⟨node, h5, h4⟩
        · have hg := h.gens g
          rw [h5] at hg
          obtain ⟨-, node', e1, -, e2⟩ := hg
          rw [h3] at e1
          cases e1
          rw [h4] at e2; cases e2
      | scan n id i nb =>
        rw [hs] at hu
        obtain ⟨h1, h2, h3, h4⟩ := hu
        exact ⟨h1, h2, h3, hlen id h4⟩
      | write id rest =>
        rw [hs] at hu
        obtain ⟨h1, node, h3, h4⟩ := hu
        refine ⟨h1, node, ?_, h4⟩
        rcases hkeep id node h3 with h5 | ⟨⟨r, h5⟩, -⟩
        · exact h5
        · exact absurd (h.writers u g id rest r hs h5) hug
      | ended => rw [hs] at hu; exact hu
      | failed e => rw [hs] at hu; exact hu

private theorem cs_pass {tables : Bool} {data : List α} {req : Nat → CacheMode × Nat} {w : CacheWorld α} (h : CsInv tables data req w)
    (g : Nat) (rest : List (List α)) (hr : w.out g ++ rest = chunks (req g).2 data) : CsInv tables data req (w.stepPass g rest) := by
  cases rest with
  | nil =>
    refine cs_put h g .ended [] rfl rfl h.nodes h.linked (fun _ _ e => Or.inl e) (fun _ _ e => by cases e) ?_
    rw [List.append_nil] at hr ⊢
    exact hr
  | cons b rest =>
    refine cs_put h g (.pass rest) [b] rfl rfl h.nodes h.linked (fun _ _ e => Or.inl e) (fun _ _ e => by cases e) ?_
    show w.out g ++ [b] ++ rest = _
    rw [List.append_assoc]
    exact hr

private theorem out_prefix {tables : Bool} {data : List α} {req : Nat → CacheMode × Nat} {w : CacheWorld α} (h : CsInv tables data req w)
    (g : Nat) : w.out g <+: chunks (req g).2 data := by
  have hg := h.gens g
  cases hs : w.gen g with
  | fresh m n => rw [hs] at hg; obtain ⟨-, -, e⟩ := hg; rw [e]; exact List.nil_prefix
  | pass rest => rw [hs] at hg; exact ⟨_, hg⟩
  | read n id i => rw [hs] at hg; obtain ⟨-, ⟨k, e, -⟩, -⟩ := hg; rw [e]; exact List.take_prefix _ _
  | scan n id i nb => rw [hs] at hg; obtain ⟨-, e, -, -⟩ := hg; rw [e]; exact List.take_prefix _ _
  | write id rest => rw [hs] at hg; exact ⟨_, hg.1⟩
  | ended => rw [hs] at hg; have e : w.out g = _ := hg; rw [e]; exact List.prefix_rfl
  | failed e => rw [hs] at hg; exact hg.1

private theorem cs_fail {tables : Bool} {data : List α} {req : Nat → CacheMode × Nat} {w : CacheWorld α} (h : CsInv tables data req w)
    (g : Nat) (e : PyErr) (ht : tables = true) : CsInv tables data req (w.put g (.failed e) []) := by
  refine cs_put h g (.failed e) [] rfl rfl h.nodes h.linked (fun _ _ e => Or.inl e) (fun _ _ e => by cases e) ?_
  rw [List.append_nil]
  exact ⟨out_prefix h g, ht⟩

private theorem gone_tables {tables : Bool} {w : CacheWorld α} {id : Nat} (h : w.gone tables id = true) : tables = true := by
  unfold CacheWorld.gone at h
  cases tables <;> simp_all

private theorem cs_read {tables : Bool} {data : List α} {req : Nat → CacheMode × Nat} {w : CacheWorld α} (h : CsInv tables data req w)
    (g id k : Nat) (hn : 0 < (req g).2) (ho : w.out g = (chunks (req g).2 data).take k) (node : CacheNode α)
    (hnode : w.nodes[id]? = some node) (hc : node.complete = some true) :
    CsInv tables data req (w.stepRead tables g (req g).2 id (k * (req g).2)) := by
  unfold CacheWorld.stepRead
  split
  · rename_i hg; exact cs_fail h g _ (gone_tables hg)
  · rw [hnode]
    dsimp only
    have hrows := (h.nodes id node hnode).2 hc
    split
    · rename_i hlt
      refine cs_put h g _ _ rfl rfl h.nodes h.linked (fun _ _ e => Or.inl e) (fun _ _ e => by cases e) ?_
      refine ⟨rfl, ⟨k + 1, ?_, by rw [Nat.add_mul, Nat.one_mul]⟩, node, hnode, hc⟩
      rw [hrows] at hlt ⊢
      rw [ho, slice_chunk, take_succ_chunks hn hlt]
    · rename_i hlt
      refine cs_put h g _ _ rfl rfl h.nodes h.linked (fun _ _ e => Or.inl e) (fun _ _ e => by cases e) ?_
      rw [hrows] at hlt
      show w.out g ++ [] = _
      rw [List.append_nil, ho, take_all hn (by omega)]

private theorem cs_begin {tables : Bool} {data : List α} {req : Nat → CacheMode × Nat} {w : CacheWorld α} (h : CsInv tables data req w)
    (g k : Nat) (hn : 0 < (req g).2) (hd : data ≠ []) (ho : w.out g = (chunks (req g).2 data).take k) (e : PyErr) :
    CsInv tables data req (w.beginWrite g (chunks (req g).2 data) k e) := by
  have hb : chunks (req g).2 data ≠ [] := fun e => hd ((chunks_eq_nil hn).1 e)
  have hflat := flatten_chunks hn data
  unfold CacheWorld.beginWrite
  rw [if_neg hb]
  have hkeep : ∀ (x : CacheNode α) (id : Nat) n, w.nodes[id]? = some n → (w.nodes ++ [x])[id]? = some n := by
    intro x id n he
    have hlt : id < w.nodes.length := by
      by_contra hc
      rw [List.getElem?_eq_none (by omega)] at he; cases he
    rw [List.getElem?_append_left hlt, he]
  have hnodes : ∀ x : CacheNode α, x.rows <+: data ∧ (x.complete = some true → x.rows = data) →
      ∀ (id : Nat) n, (w.nodes ++ [x])[id]? = some n → n.rows <+: data ∧ (n.complete = some true → n.rows = data) := by
    intro x hx id n he
    by_cases hlt : id < w.nodes.length
    · rw [List.getElem?_append_left hlt] at he; exact h.nodes id n he
    · rw [List.getElem?_append_right (by omega)] at he
      by_cases h0 : id - w.nodes.length = 0
      · rw [h0] at he; cases he; exact hx
      · rw [List.getElem?_eq_none (by simp; omega)] at he; cases he
  cases hdrop : (chunks (req g).2 data).drop k with
  | nil =>
    dsimp only
    refine cs_put h g _ _ rfl rfl (hnodes _ ⟨?_, fun _ => hflat⟩) ?_ (fun id n e => Or.inl (hkeep _ id n e)) (fun _ _ e => by cases e) ?_
    · dsimp only; rw [hflat]; exact List.prefix_rfl
    · intro id hid; cases hid; simp
    · show w.out g ++ [] = _
      rw [List.append_nil, ho]
      have := List.take_append_drop k (chunks (req g).2 data)
      rw [hdrop, List.append_nil] at this
      exact this
  | cons b rest =>
    dsimp only
    have hsplit : (chunks (req g).2 data).take k ++ (b :: rest) = chunks (req g).2 data := by rw [← hdrop]; exact List.take_append_drop _ _
    have hall : ((chunks (req g).2 data).take k).flatten ++ b ++ rest.flatten = data := by
      conv_rhs => rw [← hflat, ← hsplit]
      simp
    refine cs_put h g _ _ rfl rfl (hnodes _ ⟨⟨_, hall⟩, fun e => by cases e⟩) ?_ (fun id n e => Or.inl (hkeep _ id n e)) ?_ ?_
    · intro id hid; cases hid; simp
    · intro id r e; cases e; exact Or.inr (Nat.le_refl _)
    · refine ⟨?_, ⟨_, some false⟩, by simp, hall, rfl⟩
      rw [ho, List.append_assoc]
      exact hsplit

private theorem cs_scan {tables : Bool} {data : List α} {req : Nat → CacheMode × Nat} {w : CacheWorld α} (h : CsInv tables data req w)
    (g id k : Nat) (hn : 0 < (req g).2) (hd : data ≠ []) (ho : w.out g = (chunks (req g).2 data).take k) (hid : id < w.nodes.length) :
    CsInv tables data req (w.stepScan tables (fun n => chunks n data) g (req g).2 id (k * (req g).2) k) := by
  unfold CacheWorld.stepScan
  split
  · rename_i hg; exact cs_fail h g _ (gone_tables hg)
  · rw [List.getElem?_eq_getElem hid]
    dsimp only
    split
    · rename_i hle
      refine cs_put h g _ _ rfl rfl h.nodes h.linked (fun _ _ e => Or.inl e) (fun _ _ e => by cases e) ?_
      have hp := (h.nodes id _ (List.getElem?_eq_getElem hid)).1
      have hlen := hp.length_le
      refine ⟨rfl, ?_, by rw [Nat.add_mul, Nat.one_mul], hid⟩
      rw [ho, slice_chunk, take_succ_chunks hn (by omega)]
      congr 2
      obtain ⟨tl, htl⟩ := hp
      conv_rhs => rw [← htl]
      rw [List.drop_append_of_le_length (by omega), List.take_append_of_le_length (by rw [List.length_drop]; omega)]
    · exact cs_begin h g k hn hd ho _

private theorem cs_write {tables : Bool} {data : List α} {req : Nat → CacheMode × Nat} {w : CacheWorld α} (h : CsInv tables data req w)
    (g id : Nat) (rest : List (List α)) (hg : w.gen g = .write id rest) : CsInv tables data req (w.stepWrite tables g id rest) := by
  have hok := h.gens g
  rw [hg] at hok
  obtain ⟨h1, node, h2, h3, h4⟩ := hok
  have hlt : id < w.nodes.length := by
    by_contra hc
    rw [List.getElem?_eq_none (by omega)] at h2; cases h2
  unfold CacheWorld.stepWrite
  split
  · rename_i hg; exact cs_fail h g _ (gone_tables hg)
  · rw [h2]
    dsimp only
    have hset : ∀ x : CacheNode α, x.rows <+: data ∧ (x.complete = some true → x.rows = data) →
        ∀ (j : Nat) n, (w.nodes.set id x)[j]? = some n → n.rows <+: data ∧ (n.complete = some true → n.rows = data) := by
      intro x hx j n he
      by_cases hj : id = j
      · subst hj
        rw [List.getElem?_set_self hlt] at he; cases he; exact hx
      · rw [List.getElem?_set_ne hj] at he; exact h.nodes j n he
    have hkeep : ∀ (x : CacheNode α) (j : Nat) n, w.nodes[j]? = some n →
        (w.nodes.set id x)[j]? = some n ∨ ((∃ r, w.gen g = .write j r) ∧ ∃ n', (w.nodes.set id x)[j]? = some n') := by
      intro x j n he
      by_cases hj : id = j
      · subst hj
        exact Or.inr ⟨⟨rest, hg⟩, x, List.getElem?_set_self hlt⟩
      · left; rw [List.getElem?_set_ne hj]; exact he
    have hl : ∀ x : CacheNode α, ∀ j, w.linked = some j → j < (w.nodes.set id x).length := by
      intro x j hj; rw [List.length_set]; exact h.linked j hj
    cases rest with
    | nil =>
      dsimp only
      rw [List.flatten_nil, List.append_nil] at h3
      refine cs_put h g _ _ rfl rfl (hset _ ⟨by dsimp only; rw [h3]; exact List.prefix_rfl, fun _ => h3⟩) (hl _) (hkeep _) (fun _ _ e => by cases e) ?_
      show w.out g ++ [] = _
      rw [List.append_nil] at h1 ⊢
      exact h1
    | cons b rest =>
      dsimp only
      rw [List.flatten_cons, ← List.append_assoc] at h3
      refine cs_put h g _ _ rfl rfl (hset _ ⟨⟨_, h3⟩, fun e => by rw [h4] at e; cases e⟩) (hl _) (hkeep _) ?_ ?_
      · intro j r e; cases e; exact Or.inl ⟨_, hg⟩
      · refine ⟨?_, _, List.getElem?_set_self hlt, h3, h4⟩
        rw [List.append_assoc]
        exact h1

private theorem cs_file {tables : Bool} {data : List α} {req : Nat → CacheMode × Nat} {w : CacheWorld α} (h : CsInv tables data req w) :
    CsInv tables data req ({ w with file := true } : CacheWorld α) := ⟨h.nodes, h.linked, h.writers, h.gens⟩

private theorem cs_step {tables : Bool} {data : List α} {req : Nat → CacheMode × Nat} (hn : ∀ g, 0 < (req g).2) (hd : data ≠ [])
    {w : CacheWorld α} (h : CsInv tables data req w) (g : Nat) : CsInv tables data req (w.step tables (fun n => chunks n data) g) := by
  have hg := h.gens g
  unfold CacheWorld.step
  cases hs : w.gen g with
  | fresh m n =>
    rw [hs] at hg
    obtain ⟨-, rfl, ho⟩ := hg
    have hpass : CsInv tables data req (w.stepPass g (chunks (req g).2 data)) := cs_pass h g _ (by rw [ho, List.nil_append])
    have hbeg : CsInv tables data req (({ w with file := true } : CacheWorld α).beginWrite g (chunks (req g).2 data) 0 .unboundLocalError) :=
      cs_begin (cs_file h) g 0 (hn g) hd (by simpa using ho) _
    have hread : ∀ id : Nat, (w.nodes[id]?.bind CacheNode.complete) = some true → CsInv tables data req (w.stepRead tables g (req g).2 id 0) := by
      intro id hc
      obtain ⟨node, e1, e2⟩ := Option.bind_eq_some_iff.1 hc
      simpa using cs_read h g id 0 (hn g) (by simpa using ho) node e1 e2
    have hscan : ∀ id, w.linked = some id → CsInv tables data req (w.stepScan tables (fun n => chunks n data) g (req g).2 id 0 0) := by
      intro id hl
      simpa using cs_scan h g id 0 (hn g) hd (by simpa using ho) (h.linked id hl)
    cases m with
    | none => exact hpass
    | readonly =>
      dsimp only
      cases hl : w.linked with
      | none => exact hpass
      | some id =>
        dsimp only
        split
        · rename_i hc; exact hread id hc.2
        · exact hpass
    | overwrite => exact hbeg
    | individual =>
      dsimp only
      cases hl : w.linked with
      | none => exact hbeg
      | some id =>
        dsimp only
        split
        · rename_i hc; exact hread id hc
        · exact hscan id hl
    | all =>
      dsimp only
      cases hl : w.linked with
      | none => exact hbeg
      | some id =>
        dsimp only
        split
        · rename_i hc; exact hread id hc
        · exact hscan id hl
  | pass rest => rw [hs] at hg; exact cs_pass h g rest hg
  | read n id i =>
    rw [hs] at hg
    obtain ⟨rfl, ⟨k, ho, rfl⟩, node, e1, e2⟩ := hg
    exact cs_read h g id k (hn g) ho node e1 e2
  | scan n id i nb =>
    rw [hs] at hg
    obtain ⟨rfl, ho, rfl, hid⟩ := hg
    exact cs_scan h g id nb (hn g) hd ho hid
  | write id rest => exact cs_write h g id rest hs
  | ended => exact h
  | failed e => exact h

private theorem cs_init {tables : Bool} {data : List α} (f : CacheFile α) (hf : CacheInv data f) (req : Nat → CacheMode × Nat) :
    CsInv tables data req (CacheWorld.init f req) := by
  refine ⟨?_, ?_, ?_, fun g => ⟨rfl, rfl, rfl⟩⟩
  · intro id n he
    rcases f with _ | _ | node
    · simp [CacheWorld.init] at he
    · simp [CacheWorld.init] at he
    · simp only [CacheWorld.init] at he
      cases id with
      | zero => simp at he; subst he; exact hf node rfl
      | succ id => simp at he
  · intro id he
    rcases f with _ | _ | node
    · simp [CacheWorld.init] at he
    · simp [CacheWorld.init] at he
    · simp [CacheWorld.init] at he ⊢; omega
  · intro g g' id r r' hg
    simp [CacheWorld.init] at hg

private theorem cs_run {tables : Bool} {data : List α} {req : Nat → CacheMode × Nat} (hn : ∀ g, 0 < (req g).2) (hd : data ≠ [])
    (sched : List Nat) {w : CacheWorld α} (h : CsInv tables data req w) : CsInv tables data req (w.run tables (fun n => chunks n data) sched) := by
  induction sched generalizing w with
  | nil => exact h
  | cons g l ih => exact ih (cs_step hn hd h g)

/-- **C139.** Any number of generators, with any modes and block sizes, on a file in any state a history of runs can leave
(`CacheInv`, see `C04_cache_transparent`), requested in any order: what a generator has delivered is the beginning of the blocks of the
source, all of them when it has ended; with h5py none fails. -/
theorem C139_blocks (tables : Bool) (data : List α) (hd : data ≠ []) (req : Nat → CacheMode × Nat) (hn : ∀ g, 0 < (req g).2)
    (f : CacheFile α) (hf : CacheInv data f) (sched : List Nat) (g : Nat) :
    ((CacheWorld.init f req).run tables (fun n => chunks n data) sched).out g <+: chunks (req g).2 data ∧
    (((CacheWorld.init f req).run tables (fun n => chunks n data) sched).gen g = .ended →
      ((CacheWorld.init f req).run tables (fun n => chunks n data) sched).out g = chunks (req g).2 data) ∧
    (tables = false → ∀ e, ((CacheWorld.init f req).run tables (fun n => chunks n data) sched).gen g ≠ .failed e) := by
  have h := cs_run hn hd sched (cs_init (tables := tables) f hf req)
  refine ⟨out_prefix h g, fun he => ?_, fun ht e he => ?_⟩
  · have := h.gens g
    rw [he] at this
    exact this
  · have := h.gens g
    rw [he] at this
    rw [ht] at this
    exact absurd this.2 (by simp)

/-- **C139.** And the file is left in a state that later runs can use: its samples are the beginning of those of the source, and all
of them if they are marked as complete. -/
theorem C139_file (tables : Bool) (data : List α) (hd : data ≠ []) (req : Nat → CacheMode × Nat) (hn : ∀ g, 0 < (req g).2)
    (f : CacheFile α) (hf : CacheInv data f) (sched : List Nat) :
    CacheInv data ((CacheWorld.init f req).run tables (fun n => chunks n data) sched).view := by
  have h := cs_run hn hd sched (cs_init (tables := tables) f hf req)
  intro n he
  unfold CacheWorld.view at he
  split at he
  · cases hl : ((CacheWorld.init f req).run tables (fun n => chunks n data) sched).linked with
    | none => rw [hl] at he; cases he
    | some id =>
      rw [hl] at he
      exact h.nodes id n (by simpa using he)
  · cases he

/-- `C139_blocks` and `C139_file` speak about this: two generators with different block sizes, one takes over what the other has written. -/
example : ((CacheWorld.init (none : CacheFile ℕ) (fun g => (.individual, if g = 0 then 2 else 3))).run false (fun n => chunks n [1, 2, 3, 4, 5])
      [0, 0, 1, 1, 0, 1]).out 1 = [[1, 2, 3], [4, 5]] := by decide +kernel
example : ((CacheWorld.init (none : CacheFile ℕ) (fun g => (.individual, if g = 0 then 2 else 3))).run false (fun n => chunks n [1, 2, 3, 4, 5])
      [0, 0, 1, 1, 0, 1]).view = some (some ⟨[1, 2, 3, 4, 5], some true⟩) := by decide +kernel

/-- No generator writes: it passes the blocks on or it finds a complete node. -/
private structure QuietInv (data : List α) (f : CacheFile α) (req : Nat → CacheMode × Nat) (w : CacheWorld α) : Prop where
  file : w.file = (CacheWorld.init f req).file
  nodes : w.nodes = (CacheWorld.init f req).nodes
  linked : w.linked = (CacheWorld.init f req).linked
  gens : ∀ g, (w.gen g = .fresh (req g).1 (req g).2) ∨ (∃ r, w.gen g = .pass r) ∨ (∃ (n id i : Nat) (node : CacheNode α), w.gen g = .read n id i ∧ w.linked = some id ∧
      w.nodes[id]? = some node) ∨ w.gen g = .ended

private theorem quiet_put {data : List α} {f : CacheFile α} {req : Nat → CacheMode × Nat} {w : CacheWorld α} (h : QuietInv data f req w)
    (g : Nat) (st : CacheGen α) (o : List (List α)) (hs : (∃ r, st = .pass r) ∨ (∃ (n id i : Nat) (node : CacheNode α), st = .read n id i ∧ w.linked = some id ∧
      w.nodes[id]? = some node) ∨ st = .ended) : QuietInv data f req (w.put g st o) := by
  refine ⟨h.file, h.nodes, h.linked, fun u => ?_⟩
  simp only [CacheWorld.put]
  by_cases hu : u = g
  · rw [if_pos hu]; exact Or.inr hs
  · rw [if_neg hu]; exact h.gens u

private theorem quiet_pass {data : List α} {f : CacheFile α} {req : Nat → CacheMode × Nat} {w : CacheWorld α} (h : QuietInv data f req w)
    (g : Nat) (r : List (List α)) : QuietInv data f req (w.stepPass g r) := by
  cases r with
  | nil => exact quiet_put h g _ _ (Or.inr (Or.inr rfl))
  | cons b r => exact quiet_put h g _ _ (Or.inl ⟨_, rfl⟩)

private theorem quiet_read {tables : Bool} {data : List α} {f : CacheFile α} {req : Nat → CacheMode × Nat} {w : CacheWorld α}
    (h : QuietInv data f req w) (g n id i : Nat) (node : CacheNode α) (hl : w.linked = some id) (hn : w.nodes[id]? = some node) :
    QuietInv data f req (w.stepRead tables g n id i) := by
  unfold CacheWorld.stepRead
  rw [if_neg (by simp [CacheWorld.gone, hl]), hn]
  dsimp only
  split
  · exact quiet_put h g _ _ (Or.inr (Or.inl ⟨_, _, _, node, rfl, hl, hn⟩))
  · exact quiet_put h g _ _ (Or.inr (Or.inr rfl))

private theorem quiet_step {tables : Bool} {data : List α} {f : CacheFile α} {req : Nat → CacheMode × Nat} {w : CacheWorld α}
    (hq : ∀ g, (req g).1 = .none ∨ (req g).1 = .readonly ∨ ((req g).1 ≠ .overwrite ∧ ∃ n, f = some (some n) ∧ n.complete = some true))
    (h : QuietInv data f req w) (g : Nat) : QuietInv data f req (w.step tables (fun n => chunks n data) g) := by
  unfold CacheWorld.step
  rcases h.gens g with e | ⟨r, e⟩ | ⟨n, id, i, node, e, hl, hn⟩ | e
  · rw [e]
    have hbind : ∀ id : Nat, (w.nodes[id]?.bind CacheNode.complete) = some true → ∃ node, w.nodes[id]? = some node := by
      intro id hc
      obtain ⟨node, e1, -⟩ := Option.bind_eq_some_iff.1 hc
      exact ⟨node, e1⟩
    have hreq := hq g
    generalize (req g).1 = m at hreq ⊢
    cases m with
    | none => exact quiet_pass h g _
    | readonly =>
      dsimp only
      cases hl : w.linked with
      | none => exact quiet_pass h g _
      | some id =>
        dsimp only
        split
        · rename_i hc
          obtain ⟨node, e1⟩ := hbind id hc.2
          exact quiet_read h g _ id 0 node hl e1
        · exact quiet_pass h g _
    | overwrite =>
      rcases hreq with h1 | h1 | ⟨h1, -⟩
      · cases h1
      · cases h1
      · exact absurd rfl h1
    | individual =>
      rcases hreq with h1 | h1 | ⟨-, n, h1, h2⟩
      · cases h1
      · cases h1
      · have hl : w.linked = some 0 := by rw [h.linked, h1]; rfl
        have hn : w.nodes[0]? = some n := by rw [h.nodes, h1]; rfl
        dsimp only
        rw [hl]
        dsimp only
        rw [if_pos (by rw [hn]; exact h2)]
        exact quiet_read h g _ 0 0 n hl hn
    | all =>
      rcases hreq with h1 | h1 | ⟨-, n, h1, h2⟩
      · cases h1
      · cases h1
      · have hl : w.linked = some 0 := by rw [h.linked, h1]; rfl
        have hn : w.nodes[0]? = some n := by rw [h.nodes, h1]; rfl
        dsimp only
        rw [hl]
        dsimp only
        rw [if_pos (by rw [hn]; exact h2)]
        exact quiet_read h g _ 0 0 n hl hn
  · rw [e]; exact quiet_pass h g r
  · rw [e]; exact quiet_read h g n id i node hl hn
  · rw [e]; exact h

/-- **C139.** Generators that find everything in the file, or that only look into it, never disturb each other, whichever library is used:
none fails and the file stays as it is. -/
theorem C139_readers (tables : Bool) (data : List α) (req : Nat → CacheMode × Nat) (f : CacheFile α)
    (hq : ∀ g, (req g).1 = .none ∨ (req g).1 = .readonly ∨ ((req g).1 ≠ .overwrite ∧ ∃ n, f = some (some n) ∧ n.complete = some true))
    (sched : List Nat) :
    (∀ g e, ((CacheWorld.init f req).run tables (fun n => chunks n data) sched).gen g ≠ .failed e) ∧
    ((CacheWorld.init f req).run tables (fun n => chunks n data) sched).view = f := by
  have key : ∀ w : CacheWorld α, QuietInv data f req w → QuietInv data f req (w.run tables (fun n => chunks n data) sched) := by
    induction sched with
    | nil => exact fun w h => h
    | cons g l ih => exact fun w h => ih _ (quiet_step hq h g)
  have h := key (CacheWorld.init f req) ⟨rfl, rfl, rfl, fun g => Or.inl rfl⟩
  refine ⟨fun g e he => ?_, ?_⟩
  · rcases h.gens g with e1 | ⟨r, e1⟩ | ⟨n, id, i, node, e1, -⟩ | e1 <;> rw [e1] at he <;> cases he
  · unfold CacheWorld.view
    rw [h.file, h.linked, h.nodes]
    rcases f with _ | _ | n <;> rfl

/-- `C139_readers` speaks about this. -/
example : ((CacheWorld.init (some (some ⟨[1, 2, 3], some true⟩) : CacheFile ℕ) (fun g => (if g = 0 then .all else .readonly, g + 1))).run true
      (fun n => chunks n [1, 2, 3]) [0, 1, 0, 1, 0, 1, 0]).out 1 = [[1, 2], [3]] := by decide +kernel

/-- One generator writes. -/
private structure OneInv (wr : Nat) (data : List α) (req : Nat → CacheMode × Nat) (w : CacheWorld α) : Prop where
  done : ∀ (id : Nat) node, w.linked = some id → w.nodes[id]? = some node → node.complete = some true → w.gen wr = .ended
  others : ∀ g, g ≠ wr → (∃ m, (m = .none ∨ m = .readonly) ∧ w.gen g = .fresh m (req g).2) ∨ (∃ r, w.gen g = .pass r) ∨
    (∃ n id i, w.gen g = .read n id i ∧ w.linked = some id ∧ w.gen wr = .ended) ∨ w.gen g = .ended
  writer : (∃ m, w.gen wr = .fresh m (req wr).2) ∨ (∃ r, w.gen wr = .pass r) ∨ (∃ n id i nb, w.gen wr = .scan n id i nb ∧ w.linked = some id) ∨
    (∃ id r, w.gen wr = .write id r ∧ w.linked = some id) ∨ w.gen wr = .ended

/-- A step of a generator that does not write. -/
private theorem one_put {wr : Nat} {data : List α} {req : Nat → CacheMode × Nat} {w : CacheWorld α} (h : OneInv wr data req w)
    (g : Nat) (hg : g ≠ wr) (st : CacheGen α) (o : List (List α)) (hs : (∃ r, st = .pass r) ∨
      (∃ n id i, st = .read n id i ∧ w.linked = some id ∧ w.gen wr = .ended) ∨ st = .ended) : OneInv wr data req (w.put g st o) := by
  have hwr : (w.put g st o).gen wr = w.gen wr := by simp only [CacheWorld.put]; rw [if_neg (Ne.symm hg)]
  refine ⟨?_, ?_, ?_⟩
  · rw [hwr]; exact h.done
  · intro u hu
    rw [hwr]
    simp only [CacheWorld.put]
    by_cases hug : u = g
    · rw [if_pos hug]; exact Or.inr hs
    · rw [if_neg hug]; exact h.others u hu
  · rw [hwr]; exact h.writer

/-- A step of the generator that writes, before its end. -/
private theorem one_put_writer {wr : Nat} {data : List α} {req : Nat → CacheMode × Nat} {w w' : CacheWorld α} (h : OneInv wr data req w)
    (hne : w.gen wr ≠ .ended) (hgen : w'.gen = w.gen) (st : CacheGen α) (o : List (List α))
    (hdone : st = .ended ∨ ∀ (id : Nat) node, w'.linked = some id → w'.nodes[id]? = some node → node.complete ≠ some true)
    (hs : (∃ r, st = .pass r) ∨ (∃ n id i nb, st = .scan n id i nb ∧ w'.linked = some id) ∨
      (∃ id r, st = .write id r ∧ w'.linked = some id) ∨ st = .ended) : OneInv wr data req (w'.put wr st o) := by
  have hwr : (w'.put wr st o).gen wr = st := by simp only [CacheWorld.put]; rw [if_pos trivial]
  refine ⟨?_, ?_, ?_⟩
  · rw [hwr]
    intro id node h1 h2 h3
    rcases hdone with h4 | h4
    · exact h4
    · exact absurd h3 (h4 id node h1 h2)
  · intro u hu
    have hug : (w'.put wr st o).gen u = w.gen u := by simp only [CacheWorld.put]; rw [if_neg hu, hgen]
    rw [hug]
    rcases h.others u hu with h1 | h1 | ⟨n, id, i, -, -, h1⟩ | h1
    · exact Or.inl h1
    · exact Or.inr (Or.inl h1)
    · exact absurd h1 hne
    · exact Or.inr (Or.inr (Or.inr h1))
  · rw [hwr]; exact Or.inr hs

private theorem one_begin {wr : Nat} {data : List α} {req : Nat → CacheMode × Nat} {w w' : CacheWorld α} (h : OneInv wr data req w)
    (hn : 0 < (req wr).2) (hd : data ≠ []) (hne : w.gen wr ≠ .ended) (hgen : w'.gen = w.gen) (k : Nat) (e : PyErr) :
    OneInv wr data req (w'.beginWrite wr (chunks (req wr).2 data) k e) := by
  have hb : chunks (req wr).2 data ≠ [] := fun e => hd ((chunks_eq_nil hn).1 e)
  unfold CacheWorld.beginWrite
  rw [if_neg hb]
  cases (chunks (req wr).2 data).drop k with
  | nil => exact one_put_writer h hne (by exact hgen) _ _ (Or.inl rfl) (Or.inr (Or.inr (Or.inr rfl)))
  | cons b rest =>
    refine one_put_writer h hne (by exact hgen) _ _ (Or.inr ?_) (Or.inr (Or.inr (Or.inl ⟨_, _, rfl, by rfl⟩)))
    intro id node h1 h2 h3
    cases h1
    simp at h2
    rw [← h2] at h3
    cases h3

private theorem one_scan {tables : Bool} {wr : Nat} {data : List α} {req : Nat → CacheMode × Nat} {w : CacheWorld α} (h : OneInv wr data req w)
    (hn : 0 < (req wr).2) (hd : data ≠ []) (hne : w.gen wr ≠ .ended) (id i nb : Nat) (hl : w.linked = some id) (hid : id < w.nodes.length) :
    OneInv wr data req (w.stepScan tables (fun n => chunks n data) wr (req wr).2 id i nb) := by
  unfold CacheWorld.stepScan
  rw [if_neg (by simp [CacheWorld.gone, hl]), List.getElem?_eq_getElem hid]
  dsimp only
  split
  · exact one_put_writer h hne (by rfl) _ _ (Or.inr fun id node h1 h2 h3 => hne (h.done id node h1 h2 h3)) (Or.inr (Or.inl ⟨_, _, _, _, rfl, hl⟩))
  · exact one_begin h hn hd hne (by rfl) nb _

private theorem one_step {tables : Bool} {wr : Nat} {data : List α} {req : Nat → CacheMode × Nat} {w : CacheWorld α}
    (hn : ∀ g, 0 < (req g).2) (hd : data ≠ []) (hc : CsInv tables data req w) (h : OneInv wr data req w) (g : Nat) :
    OneInv wr data req (w.step tables (fun n => chunks n data) g) := by
  by_cases hg : g = wr
  · subst hg
    by_cases hne : w.gen g = .ended
    · unfold CacheWorld.step
      rw [hne]; exact h
    have hopen : ∀ id : Nat, (w.nodes[id]?.bind CacheNode.complete) = some true → w.linked = some id → False := by
      intro id hb hl
      obtain ⟨node, e1, e2⟩ := Option.bind_eq_some_iff.1 hb
      exact hne (h.done id node hl e1 e2)
    have hpass : ∀ r, OneInv g data req (w.stepPass g r) := by
      intro r
      have hdone : ∀ (id : Nat) node, w.linked = some id → w.nodes[id]? = some node → node.complete ≠ some true :=
        fun id node h1 h2 h3 => hne (h.done id node h1 h2 h3)
      cases r with
      | nil => exact one_put_writer h hne (by rfl) _ _ (Or.inr hdone) (Or.inr (Or.inr (Or.inr rfl)))
      | cons b r => exact one_put_writer h hne (by rfl) _ _ (Or.inr hdone) (Or.inl ⟨_, rfl⟩)
    unfold CacheWorld.step
    rcases h.writer with ⟨m, e⟩ | ⟨r, e⟩ | ⟨n, id, i, nb, e, hl⟩ | ⟨id, r, e, hl⟩ | e
    · rw [e]
      cases m with
      | none => exact hpass _
      | readonly =>
        dsimp only
        cases hl : w.linked with
        | none => exact hpass _
        | some id =>
          dsimp only
          split
          · rename_i hb; exact (hopen id hb.2 hl).elim
          · exact hpass _
      | overwrite => exact one_begin h (hn g) hd hne (by rfl) 0 _
      | individual =>
        dsimp only
        cases hl : w.linked with
        | none => exact one_begin h (hn g) hd hne (by rfl) 0 _
        | some id =>
          dsimp only
          split
          · rename_i hb; exact (hopen id hb hl).elim
          · exact one_scan h (hn g) hd hne id 0 0 hl (hc.linked id hl)
      | all =>
        dsimp only
        cases hl : w.linked with
        | none => exact one_begin h (hn g) hd hne (by rfl) 0 _
        | some id =>
          dsimp only
          split
          · rename_i hb; exact (hopen id hb hl).elim
          · exact one_scan h (hn g) hd hne id 0 0 hl (hc.linked id hl)
    · rw [e]; exact hpass r
    · rw [e]
      have hok := hc.gens g
      rw [e] at hok
      obtain ⟨rfl, -⟩ := hok
      exact one_scan h (hn g) hd hne id i nb hl (hc.linked id hl)
    · rw [e]
      have hok := hc.gens g
      rw [e] at hok
      obtain ⟨-, node, h2, -, h4⟩ := hok
      dsimp only
      unfold CacheWorld.stepWrite
      rw [if_neg (by simp [CacheWorld.gone, hl]), h2]
      have hlt : id < w.nodes.length := hc.linked id hl
      cases r with
      | nil => exact one_put_writer h hne (by rfl) _ _ (Or.inl rfl) (Or.inr (Or.inr (Or.inr rfl)))
      | cons b r =>
        refine one_put_writer h hne (by rfl) _ _ (Or.inr ?_) (Or.inr (Or.inr (Or.inl ⟨_, _, rfl, hl⟩)))
        intro j nd h1 h5 h6
        dsimp only at h1 h5
        rw [hl] at h1
        cases h1
        rw [List.getElem?_set_self hlt] at h5
        cases h5
        dsimp only at h6
        rw [h4] at h6
        cases h6
    · exact absurd e hne
  · have hpass : ∀ r, OneInv wr data req (w.stepPass g r) := by
      intro r
      cases r with
      | nil => exact one_put h g hg _ _ (Or.inr (Or.inr rfl))
      | cons b r => exact one_put h g hg _ _ (Or.inl ⟨_, rfl⟩)
    have hread : ∀ n id i, w.linked = some id → w.gen wr = .ended → OneInv wr data req (w.stepRead tables g n id i) := by
      intro n id i hl he
      unfold CacheWorld.stepRead
      rw [if_neg (by simp [CacheWorld.gone, hl]), List.getElem?_eq_getElem (hc.linked id hl)]
      dsimp only
      split
      · exact one_put h g hg _ _ (Or.inr (Or.inl ⟨_, _, _, rfl, hl, he⟩))
      · exact one_put h g hg _ _ (Or.inr (Or.inr rfl))
    unfold CacheWorld.step
    rcases h.others g hg with ⟨m, hm, e⟩ | ⟨r, e⟩ | ⟨n, id, i, e, hl, he⟩ | e
    · rw [e]
      rcases hm with rfl | rfl
      · exact hpass _
      · dsimp only
        cases hl : w.linked with
        | none => exact hpass _
        | some id =>
          dsimp only
          split
          · rename_i hb
            obtain ⟨node, e1, e2⟩ := Option.bind_eq_some_iff.1 hb.2
            exact hread _ id 0 hl (h.done id node hl e1 e2)
          · exact hpass _
    · rw [e]; exact hpass r
    · rw [e]; exact hread n id i hl he
    · rw [e]; exact h

/-- **C139.** One generator fills the cache, in any mode, while all others at most look into it: whichever library is used, none fails. -/
theorem C139_one_writer (tables : Bool) (data : List α) (hd : data ≠ []) (req : Nat → CacheMode × Nat) (hn : ∀ g, 0 < (req g).2)
    (f : CacheFile α) (hf : CacheInv data f) (hopen : ∀ n, f = some (some n) → n.complete ≠ some true)
    (wr : Nat) (ho : ∀ g, g ≠ wr → (req g).1 = .none ∨ (req g).1 = .readonly) (sched : List Nat) (g : Nat) (e : PyErr) :
    ((CacheWorld.init f req).run tables (fun n => chunks n data) sched).gen g ≠ .failed e := by
  have key : ∀ w : CacheWorld α, CsInv tables data req w → OneInv wr data req w → OneInv wr data req (w.run tables (fun n => chunks n data) sched) := by
    induction sched with
    | nil => exact fun w _ h => h
    | cons g l ih => exact fun w hc h => ih _ (cs_step hn hd hc g) (one_step hn hd hc h g)
  have h := key (CacheWorld.init f req) (cs_init f hf req) ⟨?_, fun g hg => Or.inl ⟨_, ho g hg, rfl⟩, Or.inl ⟨_, rfl⟩⟩
  · intro he
    by_cases hg : g = wr
    · subst hg
      rcases h.writer with ⟨m, e1⟩ | ⟨r, e1⟩ | ⟨n, id, i, nb, e1, -⟩ | ⟨id, r, e1, -⟩ | e1 <;> rw [e1] at he <;> cases he
    · rcases h.others g hg with ⟨m, -, e1⟩ | ⟨r, e1⟩ | ⟨n, id, i, e1, -⟩ | e1 <;> rw [e1] at he <;> cases he
  · intro id node h1 h2 h3
    rcases f with _ | _ | n
    · simp [CacheWorld.init] at h1
    · simp [CacheWorld.init] at h1
    · simp only [CacheWorld.init] at h1 h2
      cases h1
      simp at h2
      exact absurd h3 (h2 ▸ hopen n rfl)

/-- `C139_one_writer` speaks about this: the second generator only looks into the file while the first one fills it, the third one starts
when the file is complete and reads from it. -/
example : ((CacheWorld.init (some none : CacheFile ℕ) (fun g => (if g = 0 then .individual else .readonly, 2))).run true
      (fun n => chunks n [1, 2, 3]) [0, 1, 0, 0, 2, 1, 2]).gen 2 = .read 2 0 4 := by decide +kernel

/-- **C139, violated.** Two branches of a chain read the same cached source block by block in turn, with PyTables: the first one fails at the
end although it has delivered everything. -/
theorem C139_pair_violated :
    ((CacheWorld.init (none : CacheFile ℕ) (fun _ => (.individual, 2))).run true (fun n => chunks n [1, 2, 3]) [0, 1, 0, 1, 0, 1]).gen 0 =
      .failed .runtimeError ∧
    ((CacheWorld.init (none : CacheFile ℕ) (fun _ => (.individual, 2))).run true (fun n => chunks n [1, 2, 3]) [0, 1, 0, 1, 0, 1]).gen 1 =
      .ended := by
  decide +kernel

/-- **C139, violated.** When the second one gets ahead the first one fails in the middle. -/
theorem C139_overtaken_violated :
    ((CacheWorld.init (none : CacheFile ℕ) (fun _ => (.individual, 2))).run true (fun n => chunks n [1, 2, 3, 4, 5]) [0, 1, 1, 0]).gen 0 =
      .failed .runtimeError ∧
    ((CacheWorld.init (none : CacheFile ℕ) (fun _ => (.individual, 2))).run true (fun n => chunks n [1, 2, 3, 4, 5]) [0, 1, 1, 0]).out 0 =
      [[1, 2]] := by
  decide +kernel

/-- **C139, violated.** A generator in overwrite mode takes the complete samples away from one that is reading them. -/
theorem C139_overwrite_violated :
    ((CacheWorld.init (some (some ⟨[1, 2, 3], some true⟩) : CacheFile ℕ) (fun g => (if g = 0 then .readonly else .overwrite, 2))).run true
      (fun n => chunks n [1, 2, 3]) [0, 1, 0]).gen 0 = .failed .runtimeError := by
  decide +kernel

end Acoular
