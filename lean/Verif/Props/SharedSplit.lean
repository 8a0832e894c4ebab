import Verif.Model.SharedSplit
import Verif.Props.HeapChain

/-!
# C153: consumers of a sample splitter do not disturb each other
-/

namespace Acoular

variable {V : Type}

open Spec

/-- **Specification** What `n` requests of one consumer should give: the blocks in turn, then the end. -/
def Spec.inTurn (blocks : List (List V)) (n : Nat) : List (Option (List V)) := (List.range n).map fun k => blocks[k]?

/-- **Specification** What the consumers do with the blocks leaves recorded data and the arrays of the source (connected at the place `[0]`) alone. -/
def Spec.OnlyReads (env : Nat → View → Memory V → Memory V) : Prop :=
  ∀ o r m a i, ((∃ b, a = .data b) ∨ ∃ q k, a = .own q k ∧ [0] <:+ q) → env o r m a i = m a i

private theorem reads_cells {env : Nat → View → Memory V → Memory V} (he : OnlyReads env) (o : Nat) (r : View) (m : Memory V) :
    ∀ c ∈ pathCells [0] ∪ dataCells, m c.1 c.2 = env o r m c.1 c.2 := by
  rintro c (⟨q, k, h, hs⟩ | ⟨b, h⟩)
  · exact (he o r m c.1 c.2 (.inr ⟨q, k, h, hs⟩)).symm
  · exact (he o r m c.1 c.2 (.inl ⟨b, h⟩)).symm

/-- One request to a generator. -/
private theorem fetch_ok {own keep : Prop} {W F : Set Cell} {P : Memory V → Prop} {acts : List (Deed V)} {all : List (List V)}
    (h : OK own keep W F P acts all) : ∀ m, P m → Supp (W ∪ dataCells) P →
      (all = [] → ∃ as, nextDeed acts = (as, none) ∧ ∀ c ∈ F, afterDeeds m as c.1 c.2 = m c.1 c.2) ∧
      ∀ b bs, all = b :: bs → ∃ as r rest Q, nextDeed acts = (as, some (r, rest)) ∧ OK own keep W (F ∪ {c | keep ∧ c ∈ r.cells}) Q rest bs ∧
        Q (afterDeeds m as) ∧ (afterDeeds m as).read r = b ∧ r.cells ⊆ W ∪ dataCells ∧ Supp (W ∪ dataCells) Q ∧
        ∀ c ∈ F, afterDeeds m as c.1 c.2 = m c.1 c.2 := by
  induction h with
  | nil => intro m _ _; exact ⟨fun _ => ⟨[], rfl, fun _ _ => rfl⟩, fun b bs h => by cases h⟩
  | @store F P d f rest bs P1 hW hF hs h h' ih =>
    intro m hm _
    have hk : ∀ c ∈ F, (m.write d (f m)) c.1 c.2 = m c.1 c.2 := fun c hc => write_of_not_mem m d _ fun hx => Set.disjoint_left.1 hF hx hc
    obtain ⟨i1, i2⟩ := ih _ (h m hm) hs
    refine ⟨fun e => ?_, fun b bs e => ?_⟩
    · obtain ⟨as, e1, e2⟩ := i1 e
      exact ⟨.store d f :: as, by simp [nextDeed, e1], fun c hc => by rw [afterDeeds, e2 c hc, hk c hc]⟩
    · obtain ⟨as, r, rest', Q, e1, e2, e3, e4, e5, e6, e7⟩ := i2 b bs e
      exact ⟨.store d f :: as, r, rest', Q, by simp [nextDeed, e1], e2, e3, e4, e5, e6, fun c hc => by rw [afterDeeds, e7 c hc, hk c hc]⟩
  | @yield F P r b rest bs Q hin hl hr hs h ho hk h' ih =>
    intro m hm _
    refine ⟨fun e => (by cases e), fun b' bs' e => ?_⟩
    cases e
    exact ⟨[], r, rest, Q, rfl, h', h m hm, hr m hm, hin, hs.mono Set.sdiff_subset, fun _ _ => rfl⟩

/-- The situation between two requests, if blocks are kept: everything fetched so far can still be read; `req o` requests of `o` so far. -/
private def Kept (objs : List Nat) (bs : List (List V)) (req : Nat → Nat) (s : SharedSplit V) : Prop :=
  ∃ (vs : List View) (F : Set Cell) (P : Memory V → Prop), OK False True (pathCells [0]) F P s.rest (bs.drop vs.length) ∧ P s.mem ∧
    Supp (pathCells [0] ∪ dataCells) P ∧ vs.length ≤ bs.length ∧ vs.map s.mem.read = bs.take vs.length ∧
    (∀ r ∈ vs, r.cells ⊆ F ∧ r.cells ⊆ pathCells [0] ∪ dataCells) ∧
    ∀ o ∈ objs, s.queue o = vs.drop (req o) ∧ (req o ≤ vs.length ∨ vs.length = bs.length)

private theorem kept_pop {objs : List Nat} {bs : List (List V)} {req : Nat → Nat} {s : SharedSplit V} {env : Nat → View → Memory V → Memory V}
    (he : OnlyReads env) {vs : List View} {F : Set Cell} {P : Memory V → Prop} (hok : OK False True (pathCells [0]) F P s.rest (bs.drop vs.length))
    (hP : P s.mem) (hs : Supp (pathCells [0] ∪ dataCells) P) (hle : vs.length ≤ bs.length) (hv : vs.map s.mem.read = bs.take vs.length)
    (hc : ∀ r ∈ vs, r.cells ⊆ F ∧ r.cells ⊆ pathCells [0] ∪ dataCells)
    (hq : ∀ o ∈ objs, s.queue o = vs.drop (req o) ∧ (req o ≤ vs.length ∨ vs.length = bs.length)) {o : Nat} (ho : o ∈ objs) (hlt : req o < vs.length) :
    (s.pop env o).2 = bs[req o]? ∧ Kept objs bs (fun p => if p = o then req p + 1 else req p) (s.pop env o).1 := by
  have e : s.queue o = vs[req o] :: vs.drop (req o + 1) := by rw [(hq o ho).1, List.drop_eq_getElem_cons hlt]
  have hb : s.mem.read vs[req o] = bs[req o] := by
    have := congrArg (fun l => l[req o]?) hv
    simp only [List.getElem?_map, List.getElem?_take, List.getElem?_eq_getElem hlt, if_pos hlt, Option.map_some,
      List.getElem?_eq_getElem (lt_of_lt_of_le hlt hle), Option.some.injEq] at this
    exact this
  simp only [SharedSplit.pop, e]
  refine ⟨by rw [hb, List.getElem?_eq_getElem], vs, F, P, hok, hs _ _ (reads_cells he o _ s.mem) hP, hs, hle, ?_, hc, fun p hp => ?_⟩
  · rw [← hv]
    exact List.map_congr_left fun r hr => (read_congr fun c hx => reads_cells he o _ s.mem c ((hc r hr).2 hx)).symm
  · by_cases hpo : p = o
    · subst hpo
      simp only [if_pos]
      exact ⟨trivial, .inl hlt⟩
    · simp only [if_neg hpo]
      exact hq p hp

private theorem kept_next {objs : List Nat} {bs : List (List V)} {req : Nat → Nat} {s : SharedSplit V} {env : Nat → View → Memory V → Memory V}
    (he : OnlyReads env) (hk : Kept objs bs req s) {o : Nat} (ho : o ∈ objs) :
    (s.next objs env o).2 = bs[req o]? ∧ Kept objs bs (fun p => if p = o then req p + 1 else req p) (s.next objs env o).1 := by
  obtain ⟨vs, F, P, hok, hP, hs, hle, hv, hc, hq⟩ := hk
  by_cases hlt : req o < vs.length
  · have e : s.queue o = vs[req o] :: vs.drop (req o + 1) := by rw [(hq o ho).1, List.drop_eq_getElem_cons hlt]
    have : s.next objs env o = s.pop env o := by simp only [SharedSplit.next, e]
    rw [this]
    exact kept_pop he hok hP hs hle hv hc hq ho hlt
  · have e : s.queue o = [] := by rw [(hq o ho).1, List.drop_eq_nil_iff]; omega
    obtain ⟨f1, f2⟩ := fetch_ok hok s.mem hP hs
    rcases Nat.lt_or_ge vs.length bs.length with hl | hl
    · have hr : req o = vs.length := by have := (hq o ho).2; omega
      obtain ⟨as, r, rest, Q, e1, e2, e3, e4, e5, e6, e7⟩ := f2 _ _ (List.drop_eq_getElem_cons hl)
      simp only [SharedSplit.next, e, e1]
      refine kept_pop (vs := vs ++ [r]) (F := F ∪ {c | True ∧ c ∈ r.cells}) (P := Q) he (by rw [List.length_append]; exact e2) e3 e6 (by simp; omega) ?_ ?_ ?_ ho (by simp; omega)
      · simp only [List.map_append, List.map_cons, List.map_nil, List.length_append, List.length_singleton]
        rw [e4, List.take_succ_eq_append_getElem hl, ← hv]
        congr 1
        exact List.map_congr_left fun q hq => read_congr fun c hx => e7 c ((hc q hq).1 hx)
      · intro q hq
        rcases List.mem_append.1 hq with hq | hq
        · exact ⟨(hc q hq).1.trans Set.subset_union_left, (hc q hq).2⟩
        · rw [List.mem_singleton] at hq
          subst hq
          exact ⟨fun c hx => .inr ⟨trivial, hx⟩, e5⟩
      · intro p hp
        have := hq p hp
        simp only [if_pos hp]
        refine ⟨by rw [this.1, List.drop_append_of_le_length (by omega)], .inl (by simp; omega)⟩
    · obtain ⟨as, e1, e2⟩ := f1 (by rw [List.drop_eq_nil_iff]; omega)
      have hle' : vs.length = bs.length := by omega
      simp only [SharedSplit.next, e, e1]
      refine ⟨by rw [List.getElem?_eq_none]; omega, vs, F, fun _ => True, ?_, trivial, Supp.const True, hle, ?_, hc, fun p hp => ?_⟩
      · rw [List.drop_of_length_le hl]; exact .nil
      · rw [← hv]
        exact List.map_congr_left fun q hq => read_congr fun c hx => e2 c ((hc q hq).1 hx)
      · refine ⟨?_, .inr hle'⟩
        by_cases hpo : p = o
        · subst hpo
          simp only [if_pos]
          rw [e, eq_comm, List.drop_eq_nil_iff]
          omega
        · simp only [if_neg hpo]
          exact (hq p hp).1

private theorem kept_run {objs : List Nat} {bs : List (List V)} {env : Nat → View → Memory V → Memory V} (he : OnlyReads env) (o : Nat) :
    ∀ (sched : List Nat), (∀ p ∈ sched, p ∈ objs) → ∀ (req : Nat → Nat) (s : SharedSplit V), Kept objs bs req s →
      gotten o (s.run objs env sched).2 = (List.range (sched.count o)).map fun k => bs[req o + k]?
  | [], _, _, _, _ => rfl
  | p :: sched, hsub, req, s, hk => by
    obtain ⟨h1, h2⟩ := kept_next he hk (hsub p (by simp))
    have ih := kept_run he o sched (fun q hq => hsub q (by simp [hq])) _ _ h2
    rw [SharedSplit.run]
    simp only [gotten] at ih ⊢
    rw [List.filterMap_cons, ih]
    by_cases hpo : p = o
    · subst hpo
      simp only [if_pos, h1, List.count_cons_self, List.range_succ_eq_map, List.map_cons, List.map_map, Nat.add_zero, Function.comp_def]
      congr 1
      exact List.map_congr_left fun k _ => by rw [Nat.add_assoc, Nat.add_comm 1 k]
    · simp [hpo, if_neg (Ne.symm hpo)]

/-- The situation between two rounds: nothing is left in the buffers; `n` blocks fetched. -/
private def Level (objs : List Nat) (bs : List (List V)) (n : Nat) (s : SharedSplit V) : Prop :=
  ∃ (F : Set Cell) (P : Memory V → Prop), OK False False (pathCells [0]) F P s.rest (bs.drop n) ∧ P s.mem ∧
    Supp (pathCells [0] ∪ dataCells) P ∧ ∀ o ∈ objs, s.queue o = []

/-- The rest of a round: `todo` have not got the block `r` yet. -/
private theorem level_pops {objs : List Nat} {bs : List (List V)} {env : Nat → View → Memory V → Memory V} (he : OnlyReads env) {n : Nat} {r : View}
    {b : List V} (hr : r.cells ⊆ pathCells [0] ∪ dataCells) {F : Set Cell} {P : Memory V → Prop} (hs : Supp (pathCells [0] ∪ dataCells) P) :
    ∀ (todo : List Nat), todo.Nodup → ∀ s : SharedSplit V, OK False False (pathCells [0]) F P s.rest (bs.drop n) → P s.mem → s.mem.read r = b →
      (∀ o ∈ todo, s.queue o = [r]) → (∀ o ∈ objs, o ∉ todo → s.queue o = []) →
      Level objs bs n (s.run objs env todo).1 ∧ (s.run objs env todo).2 = todo.map fun o => (o, some b)
  | [], _, s, hok, hP, _, _, hq => ⟨⟨F, P, hok, hP, hs, fun o ho => hq o ho (by simp)⟩, rfl⟩
  | o :: todo, hnd, s, hok, hP, hb, h1, h2 => by
    have hq := h1 o (by simp)
    have e : s.next objs env o = (⟨env o r s.mem, s.rest, fun p => if p = o then [] else s.queue p⟩, some (s.mem.read r)) := by
      simp only [SharedSplit.next, SharedSplit.pop, hq]
    rw [SharedSplit.run, e]
    rw [List.nodup_cons] at hnd
    obtain ⟨i1, i2⟩ := level_pops (objs := objs) (bs := bs) (n := n) (b := b) he hr hs todo hnd.2
      ⟨env o r s.mem, s.rest, fun p => if p = o then [] else s.queue p⟩ hok (hs _ _ (reads_cells he o r s.mem) hP)
      (by rw [← hb]; exact (read_congr fun c hx => reads_cells he o r s.mem c (hr hx)).symm)
      (fun p hp => by
        have : p ≠ o := fun h => hnd.1 (h ▸ hp)
        simp only [if_neg this]
        exact h1 p (by simp [hp]))
      (fun p hp hpt => by
        by_cases hpo : p = o
        · simp [hpo]
        · simp only [if_neg hpo]
          exact h2 p hp (by simp [hpo, hpt]))
    exact ⟨i1, by rw [i2, hb]; rfl⟩

/-- Requests after the end. -/
private theorem level_ends {objs : List Nat} {bs : List (List V)} {env : Nat → View → Memory V → Memory V} {n : Nat} (hn : bs.length ≤ n) :
    ∀ (todo : List Nat), (∀ o ∈ todo, o ∈ objs) → ∀ s : SharedSplit V, Level objs bs n s →
      Level objs bs n (s.run objs env todo).1 ∧ (s.run objs env todo).2 = todo.map fun o => (o, none)
  | [], _, s, hl => ⟨hl, rfl⟩
  | o :: todo, hsub, s, ⟨F, P, hok, hP, hs, hq⟩ => by
    obtain ⟨as, e1, e2⟩ := (fetch_ok hok s.mem hP hs).1 (by rw [List.drop_eq_nil_iff]; omega)
    have e : s.next objs env o = (⟨afterDeeds s.mem as, [], s.queue⟩, none) := by
      simp only [SharedSplit.next, hq o (hsub o (by simp)), e1]
    rw [SharedSplit.run, e]
    obtain ⟨i1, i2⟩ := level_ends (env := env) hn todo (fun p hp => hsub p (by simp [hp])) ⟨afterDeeds s.mem as, [], s.queue⟩
      ⟨∅, fun _ => True, by rw [List.drop_of_length_le hn]; exact .nil, trivial, Supp.const True, hq⟩
    exact ⟨i1, by rw [i2]; rfl⟩

private theorem level_round {objs : List Nat} {bs : List (List V)} {env : Nat → View → Memory V → Memory V} (he : OnlyReads env) {n : Nat}
    {round : List Nat} (hp : round.Perm objs) (hnd : objs.Nodup) (hne : objs ≠ []) {s : SharedSplit V} (hl : Level objs bs n s) :
    Level objs bs (n + 1) (s.run objs env round).1 ∧ (s.run objs env round).2 = round.map fun o => (o, bs[n]?) := by
  rcases Nat.lt_or_ge n bs.length with hlt | hge
  · obtain ⟨F, P, hok, hP, hs, hq⟩ := hl
    obtain ⟨as, r, rest, Q, e1, e2, e3, e4, e5, e6, e7⟩ := (fetch_ok hok s.mem hP hs).2 _ _ (List.drop_eq_getElem_cons hlt)
    cases round with
    | nil => exact absurd (List.nil_perm.1 hp) hne
    | cons o todo =>
      let s1 : SharedSplit V := ⟨afterDeeds s.mem as, rest, fun p => if p ∈ objs then s.queue p ++ [r] else s.queue p⟩
      have ho : o ∈ objs := hp.mem_iff.1 (by simp)
      have hq1 : ∀ p ∈ objs, s1.queue p = [r] := fun p hp => by simp only [s1, if_pos hp, hq p hp, List.nil_append]
      have e : s.next objs env o = s1.next objs env o := by
        conv_rhs => rw [SharedSplit.next, hq1 o ho]
        simp only [SharedSplit.next, hq o ho, e1]
        simp [s1]
      have e' : s.run objs env (o :: todo) = s1.run objs env (o :: todo) := by rw [SharedSplit.run, SharedSplit.run, e]
      rw [e', List.getElem?_eq_getElem hlt]
      exact level_pops he e5 e6 (o :: todo) (hp.nodup_iff.2 hnd) s1 e2 e3 e4 (fun p hx => hq1 p (hp.mem_iff.1 hx))
        (fun p hx hx' => absurd (hp.mem_iff.2 hx) hx')
  · obtain ⟨i1, i2⟩ := level_ends (env := env) hge round (fun o ho => hp.mem_iff.1 ho) s hl
    rw [List.getElem?_eq_none hge]
    refine ⟨?_, i2⟩
    obtain ⟨F, P, hok, hP, hs, hq⟩ := i1
    rw [List.drop_of_length_le hge] at hok
    exact ⟨F, P, by rw [List.drop_of_length_le (by omega)]; exact hok, hP, hs, hq⟩

private theorem run_append (objs : List Nat) (env : Nat → View → Memory V → Memory V) : ∀ (a b : List Nat) (s : SharedSplit V),
    (s.run objs env (a ++ b)).2 = (s.run objs env a).2 ++ ((s.run objs env a).1.run objs env b).2
  | [], _, _ => rfl
  | o :: a, b, s => by
    rw [List.cons_append, SharedSplit.run, SharedSplit.run, run_append objs env a b]
    rfl

private theorem gotten_append (o : Nat) (a b : List (Nat × Option (List V))) : gotten o (a ++ b) = gotten o a ++ gotten o b := by
  simp [gotten]

private theorem gotten_round (o : Nat) (x : Option (List V)) : ∀ (l : List Nat), l.Nodup → o ∈ l → gotten o (l.map fun p => (p, x)) = [x]
  | [], _, h => by simp at h
  | p :: l, hnd, h => by
    rw [List.nodup_cons] at hnd
    by_cases hpo : p = o
    · subst hpo
      have : gotten p (l.map fun q => (q, x)) = [] := by
        rw [gotten, List.filterMap_eq_nil_iff]
        intro y hy
        obtain ⟨q, hq, rfl⟩ := List.mem_map.1 hy
        have : q ≠ p := fun h => hnd.1 (h ▸ hq)
        simp [this]
      rw [List.map_cons]
      unfold gotten at this ⊢
      rw [List.filterMap_cons, this]
      simp
    · have := gotten_round o x l hnd.2 (by simpa [Ne.symm hpo] using h)
      rw [List.map_cons]
      unfold gotten at this ⊢
      rw [List.filterMap_cons, this]
      simp [hpo]

private theorem level_run {objs : List Nat} {bs : List (List V)} {env : Nat → View → Memory V → Memory V} (he : OnlyReads env) (hnd : objs.Nodup)
    {o : Nat} (ho : o ∈ objs) : ∀ (rounds : List (List Nat)), (∀ l ∈ rounds, l.Perm objs) → ∀ (n : Nat) (s : SharedSplit V), Level objs bs n s →
      gotten o (s.run objs env rounds.flatten).2 = (List.range rounds.length).map fun k => bs[n + k]?
  | [], _, _, _, _ => rfl
  | l :: rounds, hp, n, s, hl => by
    obtain ⟨h1, h2⟩ := level_round he (hp l (by simp)) hnd (List.ne_nil_of_mem ho) hl
    rw [List.flatten_cons, run_append, gotten_append, h2, gotten_round o _ l ((hp l (by simp)).nodup_iff.2 hnd) ((hp l (by simp)).mem_iff.2 ho),
      level_run he hnd ho rounds (fun q hq => hp q (by simp [hq])) (n + 1) _ h1, List.length_cons, List.range_succ_eq_map, List.map_cons, List.map_map,
      List.singleton_append, Nat.add_zero]
    congr 1
    exact List.map_congr_left fun k _ => by simp [Nat.add_assoc, Nat.add_comm 1 k]

private theorem supp_same' (m : Memory V) : Supp (pathCells [0] ∪ dataCells) (SameData m) := by
  intro a b e hx c
  rw [← hx c]
  funext i
  exact (e (.data c, i) (.inr ⟨c, rfl⟩)).symm

section
variable {K : Type} [Field K] [CharZero K] [AddCommGroup V] [Module K V] {m : Memory V} {source : HObj V} {data : List V}

/-- **C153** Each of the objects connected to a sample splitter gets the blocks of the signal in turn, whatever the order of the requests, if the
source does not overwrite its blocks and the consumers do not change them.  Missing: both conditions are necessary, see below. -/
theorem C153_consumers_partial (h : Carries K m source data) (num : ℕ) (hn : 0 < num) (hs : Safe source num) (hk : Keeps source num)
    (env : ℕ → View → Memory V → Memory V) (he : OnlyReads env) (objs sched : List ℕ) (hsub : ∀ p ∈ sched, p ∈ objs) (o : ℕ) :
    ∃ blocks, IsBlocking num data blocks ∧
      gotten o ((SharedSplit.start m source num).run objs env sched).2 = inTurn blocks (sched.count o) := by
  refine ⟨chunks num data, isBlocking_chunks hn data, ?_⟩
  have hok := (chain_ok h num hn [0] hs).weaken (own' := False) (keep' := True) (F' := ∅) (fun h => h.elim) (fun _ => hk) (le_refl _) (by simp)
  have := kept_run (objs := objs) he o sched hsub (fun _ => 0) (SharedSplit.start m source num)
    ⟨[], ∅, SameData m, by simpa [SharedSplit.start] using hok, fun _ => rfl, supp_same' m, by simp, by simp, by simp, fun p _ => ⟨by simp [SharedSplit.start], .inl (by simp)⟩⟩
  rw [this, inTurn]
  simp

/-- **C153** (in step) If the consumers take turns - each gets a block before any of them asks for the next one - the source may overwrite its
blocks.  Missing: the consumers must not change the blocks, see below. -/
theorem C153_in_step_partial (h : Carries K m source data) (num : ℕ) (hn : 0 < num) (hs : Safe source num)
    (env : ℕ → View → Memory V → Memory V) (he : OnlyReads env) (objs : List ℕ) (hnd : objs.Nodup) (rounds : List (List ℕ))
    (hr : ∀ l ∈ rounds, l.Perm objs) (o : ℕ) (ho : o ∈ objs) :
    ∃ blocks, IsBlocking num data blocks ∧
      gotten o ((SharedSplit.start m source num).run objs env rounds.flatten).2 = inTurn blocks rounds.length := by
  refine ⟨chunks num data, isBlocking_chunks hn data, ?_⟩
  have hok := (chain_ok h num hn [0] hs).weaken (own' := False) (keep' := False) (F' := ∅) (fun h => h.elim) (fun h => h.elim) (le_refl _) (by simp)
  rw [level_run he hnd ho rounds hr 0 (SharedSplit.start m source num)
    ⟨∅, SameData m, by simpa [SharedSplit.start] using hok, fun _ => rfl, supp_same' m, fun _ _ => rfl⟩, inTurn]
  simp

end

/-! ### What goes wrong otherwise -/

/-- Recorded data 1, 2, 3, ... in every array. -/
private def counting : Memory ℚ := fun a i => match a with | .data _ => (i : ℚ) + 1 | .own .. => 0

/-- **C153** (violated) A selection of samples is distributed to two objects; the first one is two blocks ahead: the second one gets the second
block twice and the first one never. -/
theorem C153_mask_violated : ∃ (m : Memory ℚ) (source : HObj ℚ) (data : List ℚ), Carries ℚ m source data ∧ Safe source 2 ∧
    gotten 1 ((SharedSplit.start m source 2).run [0, 1] (fun _ _ m => m) [0, 0, 1, 1]).2 = [(chunks 2 data)[1]?, (chunks 2 data)[1]?] ∧
    gotten 1 ((SharedSplit.start m source 2).run [0, 1] (fun _ _ m => m) [0, 0, 1, 1]).2 ≠ inTurn (chunks 2 data) 2 := by
  have h := Carries.mask (K := ℚ) (start := 1) (stop := 5) none (Carries.samples (m := counting) 0 6 (by decide)) (by decide) (by simp)
  refine ⟨counting, _, _, h, trivial, ?_, ?_⟩ <;> decide +kernel

/-- **C153** (violated) One of two consumers adds something to the blocks it gets, as `Mixer` does: the other one gets the sum, though nothing was
added in its branch; the result depends on who asks first. -/
theorem C153_mixer_violated : ∃ (m : Memory ℚ) (source : HObj ℚ) (data : List ℚ) (env : ℕ → View → Memory ℚ → Memory ℚ),
    Carries ℚ m source data ∧ Safe source 2 ∧ Keeps source 2 ∧ Owned source 2 ∧
    (∀ o r m' a i, ¬ (a = r.arr ∧ r.off ≤ i ∧ i < r.off + r.len) → env o r m' a i = m' a i) ∧ (∀ r m', env 1 r m' = m') ∧
    gotten 1 ((SharedSplit.start m source 2).run [0, 1] env [0, 1, 0, 1]).2 ≠ inTurn (chunks 2 data) 2 ∧
    gotten 1 ((SharedSplit.start m source 2).run [0, 1] env [1, 0, 1, 0]).2 = inTurn (chunks 2 data) 2 := by
  have h := Carries.rowwise (K := ℚ) (fun x => 2 * x) (Carries.samples (m := counting) 0 4 (by decide))
  refine ⟨counting, _, _, fun o r m' => if o = 0 then m'.write r ((m'.read r).map (· + 1)) else m', h, trivial, trivial, trivial, fun o r m' a i hc => ?_,
    fun _ _ => rfl, ?_, ?_⟩
  · beta_reduce
    by_cases ho : o = 0
    · rw [if_pos ho]
      exact write_of_not_mem m' r _ (c := (a, i)) hc
    · rw [if_neg ho]
  · decide +kernel
  · decide +kernel

/-- **C153** (violated) A simulated source is distributed to two objects; the first one is two blocks ahead: the second one gets the second block
twice and the first one never. -/
theorem C153_simulated_violated : ∃ (m : Memory ℚ) (signal : List ℚ), Carries ℚ m (.simulated signal) signal ∧
    gotten 1 ((SharedSplit.start m (.simulated signal) 2).run [0, 1] (fun _ _ m => m) [0, 0, 1, 1]).2 = [(chunks 2 signal)[1]?, (chunks 2 signal)[1]?] ∧
    gotten 1 ((SharedSplit.start m (.simulated signal) 2).run [0, 1] (fun _ _ m => m) [0, 0, 1, 1]).2 ≠ inTurn (chunks 2 signal) 2 :=
  ⟨counting, [1, 2, 3, 4], .simulated _, by decide +kernel, by decide +kernel⟩

/-! ### The hypotheses are met -/

/-- A calibrated recording, distributed to three objects of different speed. -/
example : ∃ (source : HObj ℚ) (data : List ℚ), Carries ℚ counting source data ∧ Safe source 2 ∧ Keeps source 2 ∧
    gotten 2 ((SharedSplit.start counting source 2).run [0, 1, 2] (fun _ _ m => m) [0, 1, 0, 0, 2, 2, 0, 1, 2, 2]).2 =
      [some [3, 6], some [9, 12], some [15], none] := by
  have h := Carries.rowwise (K := ℚ) (3 * ·) (Carries.samples (m := counting) 0 5 (by decide))
  exact ⟨_, _, h, trivial, trivial, by decide +kernel⟩

/-- A selection of samples, distributed to two objects that take turns. -/
example : ∃ (source : HObj ℚ) (data : List ℚ), Carries ℚ counting source data ∧ Safe source 2 ∧ ¬ Keeps source 2 ∧
    (∀ l ∈ [[0, 1], [1, 0], [0, 1]], l.Perm [0, 1]) ∧
    gotten 1 ((SharedSplit.start counting source 2).run [0, 1] (fun _ _ m => m) [[0, 1], [1, 0], [0, 1]].flatten).2 =
      [some [2, 3], some [4, 5], none] := by
  have h := Carries.mask (K := ℚ) (start := 1) (stop := 5) none (Carries.samples (m := counting) 0 6 (by decide)) (by decide) (by simp)
  refine ⟨_, _, h, trivial, ?_, by decide, by decide +kernel⟩
  simp only [Keeps, List.length_map, List.length_range]
  rw [if_pos (by decide)]
  unfold oneBlock
  decide

end Acoular
