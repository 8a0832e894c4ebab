import Verif.Model.SplitHistory
import Verif.Spec.Stream
import Mathlib.Data.List.Basic

/-!
# C140: objects that are registered and removed while others are running
-/

namespace Acoular
open Spec

variable {β : Type}

/-- The blocks object `o` received in a history. -/
def Spec.received (o : Nat) (outs : List (HistOp × HistOut β)) : List β :=
  outs.filterMap fun x => match x with
    | (.next p, .block b) => if p = o then some b else none
    | _ => none

/-- The source is not asked again from its beginning: whenever a generator starts the source generator exists. -/
def Spec.SamePass (all : List β) (s : HistSplit β) (ops : List HistOp) : Prop :=
  ∀ pre p post, ops = pre ++ .next p :: post → (s.run all pre).1.gen p = .notStarted → (s.run all pre).1.sourceExists = true

/-- `o` keeps up: whenever a block is requested by anybody there is room in its buffer. -/
def Spec.KeepsUp (all : List β) (s : HistSplit β) (ops : List HistOp) (o : Nat) : Prop :=
  ∀ pre p post, ops = pre ++ .next p :: post → ((s.run all pre).1.queue o).length < (s.run all pre).1.cap o

private theorem inspect_eq (l : List Nat) (s : HistSplit β) : ∃ b, (s.inspect l).1 = { s with overflow := b } ∧ (s.overflow = true → b = true) ∧
    ((s.inspect l).2 = true → ∀ p ∈ l, s.treat p = .error → (s.queue p).length = s.size → b = true) := by
  induction l generalizing s with
  | nil => exact ⟨s.overflow, rfl, id, by simp⟩
  | cons p l ih =>
    unfold HistSplit.inspect
    by_cases hp : p ∈ s.regs
    · rw [if_pos hp]
      by_cases hc : s.treat p = .error ∧ (s.queue p).length = s.size
      · rw [if_pos hc]
        obtain ⟨b, h1, h2, h3⟩ := ih { s with overflow := true }
        exact ⟨b, h1, fun _ => h2 rfl, fun h q hq _ _ => h2 rfl⟩
      · rw [if_neg hc]
        obtain ⟨b, h1, h2, h3⟩ := ih s
        refine ⟨b, h1, h2, fun h q hq ht hl => ?_⟩
        rcases List.mem_cons.1 hq with rfl | hq
        · exact absurd ⟨ht, hl⟩ hc
        · exact h3 h q hq ht hl
    · rw [if_neg hp]
      exact ⟨s.overflow, rfl, id, by simp⟩

private theorem received_append (o : Nat) (a b : List (HistOp × HistOut β)) : received o (a ++ b) = received o a ++ received o b := by
  simp [received]

private theorem run_append' (all : List β) (s : HistSplit β) (xs ys : List HistOp) :
    s.run all (xs ++ ys) = (((s.run all xs).1.run all ys).1, (s.run all xs).2 ++ ((s.run all xs).1.run all ys).2) := by
  induction xs generalizing s with
  | nil => rfl
  | cons x xs ih => simp only [List.cons_append, HistSplit.run, ih]

private theorem dequePush_sub (cap : Nat) (q : List β) (b : β) : (dequePush cap q b).Sublist (q ++ [b]) := List.drop_sublist _ _

private theorem dequePush_room {cap : Nat} {q : List β} (h : q.length < cap) (b : β) : dequePush cap q b = q ++ [b] := by
  simp only [dequePush, List.length_append, List.length_singleton]
  rw [show q.length + 1 - cap = 0 by omega, List.drop_zero]

/-- What a `next` leaves alone. -/
private structure Same (s s' : HistSplit β) : Prop where
  regs : s'.regs = s.regs
  cap : s'.cap = s.cap
  treat : s'.treat = s.treat
  size : s'.size = s.size
  gen : ∀ q, s'.gen q = s.gen q ∨ s'.gen q = .done ∨ s'.gen q = .active s.toInspect

/-- The ways in which a `next` of a started generator ends, if all buffers have room for a block. -/
private inductive Turn (p : Nat) (l : List Nat) (s s' : HistSplit β) : HistOut β → Prop
  | raised (out : HistOut β) (hq : s'.queue = s.queue) (hs : s'.src = s.src) (hv : s.overflow = true → s'.overflow = true)
      (h1 : ∀ b, out ≠ .block b) (h2 : out ≠ .stop) : Turn p l s s' out
  | pop (b : β) (q : List β) (hp : s.queue p = b :: q) (hq : s'.queue = fun u => if u = p then q else s.queue u) (hs : s'.src = s.src)
      (h0 : s.overflow = false) (hv : s'.overflow = false) : Turn p l s s' (.block b)
  | stop (hp : s.queue p = []) (hsrc : s.src = []) (hq : s'.queue = s.queue) (hs : s'.src = []) (h0 : s.overflow = false) : Turn p l s s' .stop
  | full (b : β) (rest : List β) (hp : s.queue p = []) (hsrc : s.src = b :: rest)
      (hq : s'.queue = fun u => if u ∈ s.regs then dequePush (s.cap u) (s.queue u) b else s.queue u) (hs : s'.src = rest)
      (h0 : s.overflow = false) (hv : s'.overflow = true) : Turn p l s s' .overflowError
  | fetch (b : β) (rest : List β) (hp : s.queue p = []) (hsrc : s.src = b :: rest)
      (hq : s'.queue = fun u => if u = p then [] else if u ∈ s.regs then dequePush (s.cap u) (s.queue u) b else s.queue u)
      (hs : s'.src = rest) (h0 : s.overflow = false) (hv : s'.overflow = false)
      (hw : ∀ u ∈ l, s.treat u = .error → (s.queue u).length ≠ s.size) : Turn p l s s' (.block b)

private theorem loop_turn (p : Nat) (l : List Nat) (s : HistSplit β) (hp : p ∈ s.regs → 0 < s.cap p) :
    Turn p l s (HistSplit.loop p l s.src s).1 (HistSplit.loop p l s.src s).2 ∧ Same s (HistSplit.loop p l s.src s).1 := by
  have hfin : ∀ t : HistSplit β, t.regs = s.regs → t.cap = s.cap → t.treat = s.treat → t.size = s.size → t.gen = s.gen → Same s (t.finish p) := by
    intro t h1 h2 h3 h4 h5
    refine ⟨h1, h2, h3, h4, fun q => ?_⟩
    simp only [HistSplit.finish]
    by_cases hq : q = p
    · rw [if_pos hq]; exact Or.inr (Or.inl rfl)
    · rw [if_neg hq, h5]; exact Or.inl rfl
  obtain ⟨v, hi, hv1, hv2⟩ := inspect_eq l s
  cases hv : s.overflow with
  | true =>
    have e : ∀ src, HistSplit.loop p l src s = (s.finish p, .overflowError) := by
      intro src; unfold HistSplit.loop; rw [hv]; rfl
    rw [e]
    exact ⟨.raised _ rfl rfl (fun h => h) (by simp) (by simp), hfin s rfl rfl rfl rfl rfl⟩
  | false =>
    by_cases hreg : p ∈ s.regs
    swap
    · have e : ∀ src, HistSplit.loop p l src s = (s.finish p, .keyError) := by
        intro src; unfold HistSplit.loop; rw [hv, if_neg (by simp), if_neg hreg]
      rw [e]
      exact ⟨.raised _ rfl rfl (fun h => h) (by simp) (by simp), hfin s rfl rfl rfl rfl rfl⟩
    have hcap := hp hreg
    cases hq : s.queue p with
    | cons b q =>
      have e : ∀ src, HistSplit.loop p l src s = ({ s with queue := fun u => if u = p then q else s.queue u }, .block b) := by
        intro src; unfold HistSplit.loop; rw [hv, if_neg (by simp), if_pos hreg, hq]
      rw [e]
      exact ⟨.pop b q hq rfl rfl hv hv, rfl, rfl, rfl, rfl, fun _ => Or.inl rfl⟩
    | nil =>
      cases hins : (s.inspect l).2 with
      | false =>
        have e : ∀ src, HistSplit.loop p l src s = ((s.inspect l).1.finish p, .keyError) := by
          intro src; unfold HistSplit.loop; rw [hv, if_neg (by simp), if_pos hreg, hq]; dsimp only; rw [hins]; rfl
        rw [e, hi]
        exact ⟨.raised _ rfl rfl (fun h => hv1 h) (by simp) (by simp), hfin _ rfl rfl rfl rfl rfl⟩
      | true =>
        cases hsrc : s.src with
        | nil =>
          have e : HistSplit.loop p l [] s = (({ (s.inspect l).1 with sourceExists := false } : HistSplit β).finish p, .stop) := by
            unfold HistSplit.loop; rw [hv, if_neg (by simp), if_pos hreg, hq]; dsimp only; rw [hins]; rfl
          rw [e, hi]
          exact ⟨.stop hq hsrc rfl hsrc hv, hfin _ rfl rfl rfl rfl rfl⟩
        | cons b rest =>
          have e : HistSplit.loop p l (b :: rest) s = HistSplit.loop p l rest ((s.inspect l).1.fill b rest) := by
            conv_lhs => unfold HistSplit.loop
            rw [hv, if_neg (by simp), if_pos hreg, hq]; dsimp only; rw [hins]; rfl
          rw [e, hi]
          cases hvv : v with
          | true =>
            have e2 : HistSplit.loop p l rest (({ s with overflow := true } : HistSplit β).fill b rest) =
                ((({ s with overflow := true } : HistSplit β).fill b rest).finish p, .overflowError) := by
              unfold HistSplit.loop; rfl
            rw [e2]
            exact ⟨.full b rest hq hsrc rfl rfl hv rfl, hfin _ rfl rfl rfl rfl rfl⟩
          | false =>
            have hqp : (({ s with overflow := false } : HistSplit β).fill b rest).queue p = [b] := by
              show (if p ∈ s.regs then dequePush (s.cap p) (s.queue p) b else s.queue p) = _
              rw [if_pos hreg, hq, dequePush_room (by simpa using hcap)]; rfl
            have e2 : HistSplit.loop p l rest (({ s with overflow := false } : HistSplit β).fill b rest) =
                ({ (({ s with overflow := false } : HistSplit β).fill b rest) with
                    queue := fun u => if u = p then [] else (({ s with overflow := false } : HistSplit β).fill b rest).queue u }, .block b) := by
              unfold HistSplit.loop
              rw [if_neg (by simp [HistSplit.fill]), if_pos (by exact hreg), hqp]
            rw [e2]
            refine ⟨.fetch b rest hq hsrc rfl rfl hv rfl ?_, rfl, rfl, rfl, rfl, fun _ => Or.inl rfl⟩
            intro u hu ht hl
            have := hv2 hins u hu ht hl
            rw [hvv] at this; cases this

/-- The same for `next`, within one pass of the source. -/
private theorem next_turn (all : List β) (p : Nat) (s : HistSplit β) (hp : p ∈ s.regs → 0 < s.cap p)
    (hpass : s.gen p = .notStarted → s.sourceExists = true) :
    (∃ l, (s.gen p = .active l ∨ l = s.toInspect) ∧ Turn p l s (s.next all p).1 (s.next all p).2) ∧ Same s (s.next all p).1 := by
  unfold HistSplit.next
  cases hg : s.gen p with
  | done => exact ⟨⟨s.toInspect, Or.inr rfl, .raised _ rfl rfl (fun h => h) (by simp) (by simp)⟩, rfl, rfl, rfl, rfl, fun _ => Or.inl rfl⟩
  | active l =>
    obtain ⟨h1, h2⟩ := loop_turn p l s hp
    exact ⟨⟨l, Or.inl rfl, h1⟩, h2⟩
  | notStarted =>
    dsimp only
    by_cases hreg : p ∈ s.regs
    · rw [if_pos hreg]
      have hb : s.begin all p = { s with gen := fun u => if u = p then .active s.toInspect else s.gen u } := by
        unfold HistSplit.begin
        rw [if_pos (hpass hg)]
      have hgen : ∀ q, (s.begin all p).gen q = s.gen q ∨ (s.begin all p).gen q = .done ∨ (s.begin all p).gen q = .active s.toInspect := by
        intro q
        rw [hb]
        dsimp only
        by_cases hq : q = p
        · rw [if_pos hq]; exact Or.inr (Or.inr rfl)
        · rw [if_neg hq]; exact Or.inl rfl
      obtain ⟨h1, h2⟩ := loop_turn p s.toInspect (s.begin all p) (by rw [hb]; exact hp)
      refine ⟨⟨s.toInspect, Or.inr rfl, ?_⟩, ?_⟩
      · generalize (HistSplit.loop p s.toInspect (s.begin all p).src (s.begin all p)).1 = s' at h1
        generalize (HistSplit.loop p s.toInspect (s.begin all p).src (s.begin all p)).2 = out at h1
        have e1 : (s.begin all p).queue = s.queue := by rw [hb]
        have e2 : (s.begin all p).src = s.src := by rw [hb]
        have e3 : (s.begin all p).overflow = s.overflow := by rw [hb]
        have e4 : (s.begin all p).regs = s.regs := by rw [hb]
        have e5 : (s.begin all p).cap = s.cap := by rw [hb]
        have e6 : (s.begin all p).treat = s.treat := by rw [hb]
        have e7 : (s.begin all p).size = s.size := by rw [hb]
        cases h1 with
        | raised _ a1 a2 a3 a4 a5 => rw [e1] at a1; rw [e2] at a2; rw [e3] at a3; exact .raised _ a1 a2 a3 a4 a5
        | pop b q a1 a2 a3 a4 a5 => rw [e1] at a1 a2; rw [e2] at a3; rw [e3] at a4; exact .pop b q a1 a2 a3 a4 a5
        | stop a1 a2 a3 a4 a5 => rw [e1] at a1 a3; rw [e2] at a2; rw [e3] at a5; exact .stop a1 a2 a3 a4 a5
        | full b rest a1 a2 a3 a4 a5 a6 =>
          rw [e1] at a1 a3; rw [e2] at a2; rw [e3] at a5; rw [e4, e5] at a3; exact .full b rest a1 a2 a3 a4 a5 a6
        | fetch b rest a1 a2 a3 a4 a5 a6 a7 =>
          rw [e1] at a1 a3 a7; rw [e2] at a2; rw [e3] at a5; rw [e4, e5] at a3; rw [e6, e7] at a7; exact .fetch b rest a1 a2 a3 a4 a5 a6 a7
      · have e8 : (s.begin all p).toInspect = s.toInspect := by rw [hb]; rfl
        refine ⟨h2.regs.trans (by rw [hb]), h2.cap.trans (by rw [hb]), h2.treat.trans (by rw [hb]), h2.size.trans (by rw [hb]), fun q => ?_⟩
        rcases h2.gen q with h3 | h3 | h3
        · rw [h3]; exact hgen q
        · exact Or.inr (Or.inl h3)
        · rw [e8] at h3; exact Or.inr (Or.inr h3)
    · rw [if_neg hreg]
      refine ⟨⟨s.toInspect, Or.inr rfl, .raised _ rfl rfl (fun h => h) (by simp) (by simp)⟩, rfl, rfl, rfl, rfl, fun q => ?_⟩
      simp only [HistSplit.finish]
      by_cases hq : q = p
      · rw [if_pos hq]; exact Or.inr (Or.inl rfl)
      · rw [if_neg hq]; exact Or.inl rfl

/-- What is assumed of an operation: no new pass, `o` stays, buffers of at least one block. -/
private structure Fair (o : Nat) (s : HistSplit β) (op : HistOp) : Prop where
  pass : ∀ p, op = .next p → s.gen p = .notStarted → s.sourceExists = true
  stays : op ≠ .remove o
  sizes : ∀ q t, op ≠ .register q (some 0) t

private structure Roomy (s : HistSplit β) : Prop where
  size : 0 < s.size
  cap : ∀ p ∈ s.regs, 0 < s.cap p

/-- Induction over a history. -/
private theorem hist_ind (all : List β) (o : Nat) (I : HistSplit β → List β → Prop) (C : HistSplit β → HistOp → Prop)
    (hstep : ∀ s op got, I s got → C s op → I (s.step all op).1 (got ++ received o [(op, (s.step all op).2)])) (ops : List HistOp) :
    ∀ s got, I s got → (∀ pre op post, ops = pre ++ op :: post → C (s.run all pre).1 op) →
      I (s.run all ops).1 (got ++ received o (s.run all ops).2) := by
  induction ops with
  | nil => intro s got h _; simpa [HistSplit.run, received] using h
  | cons op ops ih =>
    intro s got h hc
    have h1 := ih _ _ (hstep s op got h (hc [] op ops rfl)) (fun pre op' post e => hc (op :: pre) op' post (by rw [e]; rfl))
    have e : (op, (s.step all op).2) :: ((s.step all op).1.run all ops).2 = [(op, (s.step all op).2)] ++ ((s.step all op).1.run all ops).2 := rfl
    show I _ (got ++ received o ((op, (s.step all op).2) :: ((s.step all op).1.run all ops).2))
    rw [e, received_append, ← List.append_assoc]
    exact h1

private theorem received_one (o p : Nat) (out : HistOut β) : received o [(.next p, out)] = match out with
    | .block b => if p = o then [b] else []
    | _ => [] := by
  cases out with
  | block b => by_cases h : p = o <;> simp [received, h]
  | _ => rfl

private theorem received_quiet (o p : Nat) (out : HistOut β) (h : ∀ b, out ≠ .block b) : received o [(.next p, out)] = [] := by
  rw [received_one]
  cases out with
  | block b => exact absurd rfl (h b)
  | _ => rfl

private theorem roomy_step (all : List β) (o : Nat) (s : HistSplit β) (op : HistOp) (h : Roomy s) (hf : Fair o s op) : Roomy (s.step all op).1 := by
  cases op with
  | register q size t =>
    show Roomy (s.register q size t).1
    unfold HistSplit.register
    split
    · exact h
    · refine ⟨h.size, fun p hp => ?_⟩
      dsimp only at hp ⊢
      split
      · cases size with
        | none => exact h.size
        | some n =>
          rcases Nat.eq_zero_or_pos n with rfl | hn
          · exact absurd rfl (hf.sizes q t)
          · exact hn
      · rename_i hne
        rcases List.mem_append.1 hp with hp | hp
        · exact h.cap p hp
        · exact absurd (List.mem_singleton.1 hp) hne
  | remove q =>
    show Roomy (s.remove q).1
    unfold HistSplit.remove
    split
    · exact ⟨h.size, fun p hp => h.cap p (List.mem_of_mem_filter hp)⟩
    · exact h
  | restart q => exact ⟨h.size, h.cap⟩
  | next p =>
    obtain ⟨-, hs⟩ := next_turn all p s (h.cap p) (hf.pass p rfl)
    show Roomy (s.next all p).1
    exact ⟨by rw [hs.size]; exact h.size, by rw [hs.regs, hs.cap]; exact h.cap⟩

/-- An operation that is not a `next` does not touch `o`. -/
private theorem other_step (all : List β) (o : Nat) (s : HistSplit β) (op : HistOp) (ho : o ∈ s.regs) (hf : Fair o s op)
    (hop : ∀ p, op ≠ .next p) : o ∈ (s.step all op).1.regs ∧ (s.step all op).1.queue o = s.queue o ∧ (s.step all op).1.src = s.src ∧
      (s.step all op).1.overflow = s.overflow ∧ (s.step all op).1.cap o = s.cap o ∧ (s.step all op).1.treat o = s.treat o ∧
      (s.step all op).1.size = s.size ∧ (∀ p l, (s.step all op).1.gen p = .active l → s.gen p = .active l) ∧
      received o [(op, (s.step all op).2)] = [] := by
  cases op with
  | register q size t =>
    show o ∈ (s.register q size t).1.regs ∧ (s.register q size t).1.queue o = _ ∧ (s.register q size t).1.src = _ ∧
      (s.register q size t).1.overflow = _ ∧ (s.register q size t).1.cap o = _ ∧ (s.register q size t).1.treat o = _ ∧
      (s.register q size t).1.size = _ ∧ (∀ p l, (s.register q size t).1.gen p = .active l → _) ∧ _
    unfold HistSplit.register
    split
    · exact ⟨ho, rfl, rfl, rfl, rfl, rfl, rfl, fun _ _ h => h, rfl⟩
    · rename_i hq
      have hne : o ≠ q := fun e => hq (e ▸ ho)
      refine ⟨List.mem_append_left _ ho, ?_, rfl, rfl, ?_, ?_, rfl, fun _ _ h => h, rfl⟩ <;> dsimp only <;> rw [if_neg hne]
  | remove q =>
    show o ∈ (s.remove q).1.regs ∧ (s.remove q).1.queue o = _ ∧ (s.remove q).1.src = _ ∧ (s.remove q).1.overflow = _ ∧
      (s.remove q).1.cap o = _ ∧ (s.remove q).1.treat o = _ ∧ (s.remove q).1.size = _ ∧ (∀ p l, (s.remove q).1.gen p = .active l → _) ∧ _
    unfold HistSplit.remove
    split
    · refine ⟨List.mem_filter.2 ⟨ho, ?_⟩, rfl, rfl, rfl, rfl, rfl, rfl, fun _ _ h => h, rfl⟩
      have : o ≠ q := fun e => hf.stays (by rw [e])
      simpa using this
    · exact ⟨ho, rfl, rfl, rfl, rfl, rfl, rfl, fun _ _ h => h, rfl⟩
  | restart q =>
    refine ⟨ho, rfl, rfl, rfl, rfl, rfl, rfl, fun p l h => ?_, rfl⟩
    by_cases hp : p = q
    · simp [HistSplit.step, hp] at h
    · simpa [HistSplit.step, hp] using h
  | next p => exact absurd rfl (hop p)

/-! ### the three invariants -/

private structure SubInv (o : Nat) (rest0 : List β) (s : HistSplit β) (got : List β) : Prop where
  room : Roomy s
  reg : o ∈ s.regs
  rel : ∃ F, F ++ s.src = rest0 ∧ (got ++ s.queue o).Sublist F

private theorem sub_step (all : List β) (o : Nat) (rest0 : List β) (s : HistSplit β) (op : HistOp) (got : List β)
    (h : SubInv o rest0 s got) (hf : Fair o s op) : SubInv o rest0 (s.step all op).1 (got ++ received o [(op, (s.step all op).2)]) := by
  refine ⟨roomy_step all o s op h.room hf, ?_, ?_⟩
  · by_cases hop : ∃ p, op = .next p
    · obtain ⟨p, rfl⟩ := hop
      have := (next_turn all p s (h.room.cap p) (hf.pass p rfl)).2.regs
      show o ∈ (s.next all p).1.regs
      rw [this]; exact h.reg
    · exact (other_step all o s op h.reg hf (fun p e => hop ⟨p, e⟩)).1
  · obtain ⟨F, hF, hsub⟩ := h.rel
    by_cases hop : ∃ p, op = .next p
    · obtain ⟨p, rfl⟩ := hop
      obtain ⟨⟨l, -, ht⟩, -⟩ := next_turn all p s (h.room.cap p) (hf.pass p rfl)
      change Turn p l s (s.step all (.next p)).1 (s.step all (.next p)).2 at ht
      generalize (s.step all (.next p)).1 = s' at ht ⊢
      generalize (s.step all (.next p)).2 = out at ht ⊢
      have hpush : ∀ b, (got ++ dequePush (s.cap o) (s.queue o) b).Sublist (F ++ [b]) := fun b =>
        (List.Sublist.append (List.Sublist.refl got) (dequePush_sub _ _ b)).trans
          (by rw [← List.append_assoc]; exact List.Sublist.append hsub (List.Sublist.refl _))
      cases ht with
      | raised _ hq hs hv h1 h2 =>
        rw [received_quiet o p out h1, List.append_nil, hq, hs]
        exact ⟨F, hF, hsub⟩
      | pop b q hp hq hs h0 hv =>
        rw [received_one, hq, hs]
        refine ⟨F, hF, ?_⟩
        dsimp only
        by_cases hpo : p = o
        · subst hpo
          rw [if_pos rfl, if_pos rfl]
          rw [hp] at hsub
          simpa using hsub
        · rw [if_neg hpo, if_neg (Ne.symm hpo), List.append_nil]; exact hsub
      | stop hp hsrc hq hs h0 =>
        rw [received_quiet o p _ (by simp), List.append_nil, hq, hs]
        rw [hsrc] at hF
        exact ⟨F, hF, hsub⟩
      | full b rest hp hsrc hq hs h0 hv =>
        rw [received_quiet o p _ (by simp), List.append_nil, hq, hs]
        rw [hsrc] at hF
        refine ⟨F ++ [b], by simpa using hF, ?_⟩
        dsimp only
        rw [if_pos h.reg]
        exact hpush b
      | fetch b rest hp hsrc hq hs h0 hv hw =>
        rw [received_one, hq, hs]
        rw [hsrc] at hF
        refine ⟨F ++ [b], by simpa using hF, ?_⟩
        dsimp only
        by_cases hpo : p = o
        · subst hpo
          rw [if_pos rfl, if_pos rfl, List.append_nil]
          rw [hp, List.append_nil] at hsub
          exact List.Sublist.append hsub (List.Sublist.refl _)
        · rw [if_neg hpo, if_neg (Ne.symm hpo), if_pos h.reg, List.append_nil]
          exact hpush b
    · obtain ⟨-, h1, h2, -, -, -, -, -, h3⟩ := other_step all o s op h.reg hf (fun p e => hop ⟨p, e⟩)
      rw [h1, h2, h3, List.append_nil]
      exact ⟨F, hF, hsub⟩

/-- The object with treatment 'error' that all inspect. -/
private structure WatchInv (o : Nat) (rest0 : List β) (s : HistSplit β) (got : List β) : Prop where
  room : Roomy s
  reg : o ∈ s.regs
  treat : s.treat o = .error
  cap : s.cap o = s.size
  len : (s.queue o).length ≤ s.size
  gens : ∀ p l, s.gen p = .active l → o ∈ l
  rel : ∃ F, F ++ s.src = rest0 ∧ got <+: F ∧ (s.overflow = false → got ++ s.queue o = F)

private theorem dequePush_len (cap : Nat) (q : List β) (b : β) : (dequePush cap q b).length ≤ cap := by
  simp [dequePush]; omega

private theorem watch_step (all : List β) (o : Nat) (rest0 : List β) (s : HistSplit β) (op : HistOp) (got : List β)
    (h : WatchInv o rest0 s got) (hf : Fair o s op) : WatchInv o rest0 (s.step all op).1 (got ++ received o [(op, (s.step all op).2)]) := by
  by_cases hop : ∃ p, op = .next p
  swap
  · obtain ⟨h0, h1, h2, h3, h4, h5, h6, h7, h8⟩ := other_step all o s op h.reg hf (fun p e => hop ⟨p, e⟩)
    refine ⟨roomy_step all o s op h.room hf, h0, h5.trans h.treat, by rw [h4, h6]; exact h.cap, by rw [h1, h6]; exact h.len,
      fun p l e => h.gens p l (h7 p l e), ?_⟩
    rw [h1, h2, h3, h8, List.append_nil]
    exact h.rel
  obtain ⟨p, rfl⟩ := hop
  obtain ⟨⟨l, hl, ht⟩, hsame⟩ := next_turn all p s (h.room.cap p) (hf.pass p rfl)
  have hinsp : o ∈ s.toInspect := by
    unfold HistSplit.toInspect
    exact List.mem_filter.2 ⟨h.reg, by rw [h.treat]; decide⟩
  have hol : o ∈ l := by
    rcases hl with hl | rfl
    · exact h.gens p l hl
    · exact hinsp
  have hroom := roomy_step all o s (.next p) h.room hf
  change Turn p l s (s.step all (.next p)).1 (s.step all (.next p)).2 at ht
  change Same s (s.step all (.next p)).1 at hsame
  generalize (s.step all (.next p)).1 = s' at ht hsame hroom ⊢
  generalize (s.step all (.next p)).2 = out at ht ⊢
  obtain ⟨F, hF, hpre, hex⟩ := h.rel
  have hgens : ∀ q l', s'.gen q = .active l' → o ∈ l' := by
    intro q l' e
    rcases hsame.gen q with h1 | h1 | h1 <;> rw [h1] at e
    · exact h.gens q l' e
    · cases e
    · cases e; exact hinsp
  refine ⟨hroom, by rw [hsame.regs]; exact h.reg, by rw [hsame.treat]; exact h.treat, by rw [hsame.cap, hsame.size]; exact h.cap, ?_, hgens, ?_⟩
  · rw [hsame.size]
    have hlen := h.len
    cases ht with
    | raised _ hq hs hv h1 h2 => rw [hq]; exact hlen
    | pop b q hp hq hs h0 hv =>
      rw [hq]; dsimp only
      by_cases hpo : o = p
      · rw [if_pos hpo]; rw [hpo, hp] at hlen; simp at hlen; omega
      · rw [if_neg hpo]; exact hlen
    | stop hp hsrc hq hs h0 => rw [hq]; exact hlen
    | full b rest hp hsrc hq hs h0 hv => rw [hq]; dsimp only; rw [if_pos h.reg, ← h.cap]; exact dequePush_len _ _ _
    | fetch b rest hp hsrc hq hs h0 hv hw =>
      rw [hq]; dsimp only
      by_cases hpo : o = p
      · rw [if_pos hpo]; simp
      · rw [if_neg hpo, if_pos h.reg, ← h.cap]; exact dequePush_len _ _ _
  · cases ht with
    | raised _ hq hs hv h1 h2 =>
      rw [received_quiet o p out h1, List.append_nil, hq, hs]
      refine ⟨F, hF, hpre, fun h3 => hex ?_⟩
      cases h4 : s.overflow with
      | false => rfl
      | true => rw [hv h4] at h3; cases h3
    | pop b q hp hq hs h0 hv =>
      rw [received_one, hq, hs]
      have hex := hex h0
      dsimp only
      by_cases hpo : p = o
      · subst hpo
        rw [if_pos rfl, if_pos rfl]
        rw [hp] at hex
        have : got ++ [b] ++ q = F := by simpa using hex
        exact ⟨F, hF, ⟨q, this⟩, fun _ => this⟩
      · rw [if_neg hpo, if_neg (Ne.symm hpo), List.append_nil]
        exact ⟨F, hF, hpre, fun _ => hex⟩
    | stop hp hsrc hq hs h0 =>
      rw [received_quiet o p _ (by simp), List.append_nil, hq, hs]
      rw [hsrc] at hF
      exact ⟨F, hF, hpre, fun _ => hex h0⟩
    | full b rest hp hsrc hq hs h0 hv =>
      rw [received_quiet o p _ (by simp), List.append_nil, hs, hv]
      rw [hsrc] at hF
      exact ⟨F ++ [b], by simpa using hF, hpre.trans (List.prefix_append _ _), fun e => by cases e⟩
    | fetch b rest hp hsrc hq hs h0 hv hw =>
      rw [received_one, hq, hs]
      rw [hsrc] at hF
      have hex := hex h0
      have hlt : (s.queue o).length < s.cap o := by
        rw [h.cap]; exact Nat.lt_of_le_of_ne h.len (hw o hol h.treat)
      dsimp only
      by_cases hpo : p = o
      · subst hpo
        rw [if_pos rfl, if_pos rfl]
        rw [hp, List.append_nil] at hex
        exact ⟨F ++ [b], by simpa using hF, by rw [hex]; exact List.prefix_rfl, fun _ => by rw [hex, List.append_nil]⟩
      · rw [if_neg hpo, if_neg (Ne.symm hpo), if_pos h.reg, List.append_nil, dequePush_room hlt]
        exact ⟨F ++ [b], by simpa using hF, hpre.trans (List.prefix_append _ _), fun _ => by rw [← hex, List.append_assoc]⟩

/-- The object that keeps up. -/
private structure KeepInv (o : Nat) (rest0 : List β) (s : HistSplit β) (got : List β) : Prop where
  room : Roomy s
  reg : o ∈ s.regs
  rel : ∃ F, F ++ s.src = rest0 ∧ got ++ s.queue o = F

private theorem keep_step (all : List β) (o : Nat) (rest0 : List β) (s : HistSplit β) (op : HistOp) (got : List β)
    (h : KeepInv o rest0 s got) (hf : Fair o s op) (hlt : ∀ p, op = .next p → (s.queue o).length < s.cap o) :
    KeepInv o rest0 (s.step all op).1 (got ++ received o [(op, (s.step all op).2)]) := by
  by_cases hop : ∃ p, op = .next p
  swap
  · obtain ⟨h0, h1, h2, h3, h4, h5, h6, h7, h8⟩ := other_step all o s op h.reg hf (fun p e => hop ⟨p, e⟩)
    refine ⟨roomy_step all o s op h.room hf, h0, ?_⟩
    rw [h1, h2, h8, List.append_nil]
    exact h.rel
  obtain ⟨p, rfl⟩ := hop
  have hlt := hlt p rfl
  obtain ⟨⟨l, hl, ht⟩, hsame⟩ := next_turn all p s (h.room.cap p) (hf.pass p rfl)
  have hroom := roomy_step all o s (.next p) h.room hf
  change Turn p l s (s.step all (.next p)).1 (s.step all (.next p)).2 at ht
  change Same s (s.step all (.next p)).1 at hsame
  generalize (s.step all (.next p)).1 = s' at ht hsame hroom ⊢
  generalize (s.step all (.next p)).2 = out at ht ⊢
  obtain ⟨F, hF, hex⟩ := h.rel
  refine ⟨hroom, by rw [hsame.regs]; exact h.reg, ?_⟩
  cases ht with
  | raised _ hq hs hv h1 h2 =>
    rw [received_quiet o p out h1, List.append_nil, hq, hs]
    exact ⟨F, hF, hex⟩
  | pop b q hp hq hs h0 hv =>
    rw [received_one, hq, hs]
    dsimp only
    by_cases hpo : p = o
    · subst hpo
      rw [if_pos rfl, if_pos rfl]
      rw [hp] at hex
      exact ⟨F, hF, by simpa using hex⟩
    · rw [if_neg hpo, if_neg (Ne.symm hpo), List.append_nil]
      exact ⟨F, hF, hex⟩
  | stop hp hsrc hq hs h0 =>
    rw [received_quiet o p _ (by simp), List.append_nil, hq, hs]
    rw [hsrc] at hF
    exact ⟨F, hF, hex⟩
  | full b rest hp hsrc hq hs h0 hv =>
    rw [received_quiet o p _ (by simp), List.append_nil, hs, hq]
    rw [hsrc] at hF
    dsimp only
    rw [if_pos h.reg, dequePush_room hlt]
    exact ⟨F ++ [b], by simpa using hF, by rw [← hex, List.append_assoc]⟩
  | fetch b rest hp hsrc hq hs h0 hv hw =>
    rw [received_one, hq, hs]
    rw [hsrc] at hF
    dsimp only
    by_cases hpo : p = o
    · subst hpo
      rw [if_pos rfl, if_pos rfl]
      rw [hp, List.append_nil] at hex
      exact ⟨F ++ [b], by simpa using hF, by rw [hex, List.append_nil]⟩
    · rw [if_neg hpo, if_neg (Ne.symm hpo), if_pos h.reg, List.append_nil, dequePush_room hlt]
      exact ⟨F ++ [b], by simpa using hF, by rw [← hex, List.append_assoc]⟩

private theorem mem_outs (all : List β) (op : HistOp) (out : HistOut β) (ops : List HistOp) : ∀ s : HistSplit β, (op, out) ∈ (s.run all ops).2 →
    ∃ pre post, ops = pre ++ op :: post ∧ out = ((s.run all pre).1.step all op).2 := by
  induction ops with
  | nil => intro s h; cases h
  | cons op' ops ih =>
    intro s h
    rcases List.mem_cons.1 h with h | h
    · cases h; exact ⟨[], ops, rfl, rfl⟩
    · obtain ⟨pre, post, h1, h2⟩ := ih _ h
      exact ⟨op' :: pre, post, by rw [h1]; rfl, h2⟩

private theorem eq_of_stop {all rest0 : List β} {s : HistSplit β} {ops pre post : List HistOp} {o : Nat} {op : HistOp}
    (he : ops = pre ++ op :: post) (h1 : received o (s.run all pre).2 = rest0) (h2 : received o (s.run all ops).2 <+: rest0) :
    received o (s.run all ops).2 = rest0 := by
  have h3 : rest0 <+: received o (s.run all ops).2 := by
    rw [he, run_append', received_append, h1]
    exact List.prefix_append _ _
  exact (List.IsPrefix.eq_of_length_le h2 h3.length_le)

private theorem fair_of {all : List β} {s : HistSplit β} {ops : List HistOp} {o : Nat} (hpass : SamePass all s ops) (hstay : .remove o ∉ ops)
    (hsz : ∀ q t, .register q (some 0) t ∉ ops) : ∀ pre op post, ops = pre ++ op :: post → Fair o (s.run all pre).1 op := by
  intro pre op post he
  refine ⟨fun p hp => hpass pre p post (by rw [he, hp]), fun e => hstay ?_, fun q t e => hsz q t ?_⟩ <;> rw [he, ← e] <;> simp

/-- **C140.** From the moment an object `o` is registered - or the source is started - with nothing waiting in its buffer: whatever others do,
including being registered, removed and started again, `o` receives blocks the source still had, in their order and none twice. -/
theorem C140_subsequence (all : List β) (s : HistSplit β) (hsize : 0 < s.size) (hcap : ∀ p ∈ s.regs, 0 < s.cap p) (o : Nat) (ho : o ∈ s.regs)
    (hq : s.queue o = []) (ops : List HistOp) (hpass : SamePass all s ops) (hstay : .remove o ∉ ops)
    (hsz : ∀ q t, .register q (some 0) t ∉ ops) : (received o (s.run all ops).2).Sublist s.src := by
  have h := hist_ind all o (SubInv o s.src) (Fair o) (fun s op got => sub_step all o _ s op got) ops s []
    ⟨⟨hsize, hcap⟩, ho, [], rfl, by rw [hq]; exact List.Sublist.refl _⟩ (fair_of hpass hstay hsz)
  obtain ⟨F, h1, h2⟩ := h.rel
  rw [List.nil_append] at h2
  rw [← h1]
  exact ((List.sublist_append_left _ _).trans h2).trans (List.sublist_append_left _ _)

/-- **C140.** If `o` has the treatment 'error', its buffer the common size, and every generator that is running began when `o` was registered,
there is no gap in what it receives, whatever it takes for others to fall behind or to hurry; and when its generator ends normally it has
received everything the source still had. -/
theorem C140_watched (all : List β) (s : HistSplit β) (hsize : 0 < s.size) (hcap : ∀ p ∈ s.regs, 0 < s.cap p) (o : Nat) (ho : o ∈ s.regs)
    (hq : s.queue o = []) (ht : s.treat o = .error) (hc : s.cap o = s.size) (hg : ∀ p l, s.gen p = .active l → o ∈ l)
    (ops : List HistOp) (hpass : SamePass all s ops) (hstay : .remove o ∉ ops) (hsz : ∀ q t, .register q (some 0) t ∉ ops) :
    received o (s.run all ops).2 <+: s.src ∧ ((.next o, .stop) ∈ (s.run all ops).2 → received o (s.run all ops).2 = s.src) := by
  have key : ∀ ops, SamePass all s ops → .remove o ∉ ops → (∀ q t, .register q (some 0) t ∉ ops) →
      WatchInv o s.src (s.run all ops).1 (received o (s.run all ops).2) := by
    intro ops h1 h2 h3
    have := hist_ind all o (WatchInv o s.src) (Fair o) (fun s op got => watch_step all o _ s op got) ops s []
      ⟨⟨hsize, hcap⟩, ho, ht, hc, by rw [hq]; exact Nat.zero_le _, hg, [], rfl, List.prefix_rfl, fun _ => by rw [hq]; rfl⟩ (fair_of h1 h2 h3)
    rwa [List.nil_append] at this
  have hpre : received o (s.run all ops).2 <+: s.src := by
    obtain ⟨F, h1, h2, -⟩ := (key ops hpass hstay hsz).rel
    rw [← h1]
    exact h2.trans (List.prefix_append _ _)
  refine ⟨hpre, fun hm => ?_⟩
  obtain ⟨pre, post, he, hout⟩ := mem_outs all _ _ ops s hm
  have hi := key pre (fun pre' p post' e => hpass pre' p (post' ++ .next o :: post) (by rw [he, e]; simp))
    (fun hc => hstay (by rw [he]; exact List.mem_append_left _ hc)) (fun q t hc => hsz q t (by rw [he]; exact List.mem_append_left _ hc))
  obtain ⟨⟨l, -, hturn⟩, -⟩ := next_turn all o _ (hi.room.cap o) (hpass pre o post he)
  change HistOut.stop = (HistSplit.next all _ o).2 at hout
  rw [← hout] at hturn
  obtain ⟨F, h1, -, h3⟩ := hi.rel
  refine eq_of_stop he ?_ hpre
  cases hturn with
  | raised _ _ _ _ _ h => exact absurd rfl h
  | stop hp hsrc _ _ h0 =>
    have h3 := h3 h0
    rw [hp, List.append_nil] at h3
    rw [hsrc, List.append_nil] at h1
    rw [h3, h1]

/-- **C140.** Whatever treatment and buffer size `o` has, and whenever it joined: as long as it keeps up there is no gap in what it receives,
and when its generator ends normally it has received everything the source still had. -/
theorem C140_keeps_up (all : List β) (s : HistSplit β) (hsize : 0 < s.size) (hcap : ∀ p ∈ s.regs, 0 < s.cap p) (o : Nat) (ho : o ∈ s.regs)
    (hq : s.queue o = []) (ops : List HistOp) (hk : KeepsUp all s ops o) (hpass : SamePass all s ops) (hstay : .remove o ∉ ops)
    (hsz : ∀ q t, .register q (some 0) t ∉ ops) :
    received o (s.run all ops).2 <+: s.src ∧ ((.next o, .stop) ∈ (s.run all ops).2 → received o (s.run all ops).2 = s.src) := by
  have key : ∀ ops, KeepsUp all s ops o → SamePass all s ops → .remove o ∉ ops → (∀ q t, .register q (some 0) t ∉ ops) →
      KeepInv o s.src (s.run all ops).1 (received o (s.run all ops).2) := by
    intro ops h0 h1 h2 h3
    have := hist_ind all o (KeepInv o s.src) (fun s op => Fair o s op ∧ ∀ p, op = .next p → (s.queue o).length < s.cap o)
      (fun s op got h hc => keep_step all o _ s op got h hc.1 hc.2) ops s [] ⟨⟨hsize, hcap⟩, ho, [], rfl, by rw [hq]; rfl⟩
      (fun pre op post e => ⟨fair_of h1 h2 h3 pre op post e, fun p hp => h0 pre p post (by rw [e, hp])⟩)
    rwa [List.nil_append] at this
  have hpre : received o (s.run all ops).2 <+: s.src := by
    obtain ⟨F, h1, h2⟩ := (key ops hk hpass hstay hsz).rel
    rw [← h1, ← h2, List.append_assoc]
    exact List.prefix_append _ _
  refine ⟨hpre, fun hm => ?_⟩
  obtain ⟨pre, post, he, hout⟩ := mem_outs all _ _ ops s hm
  have hi := key pre (fun pre' p post' e => hk pre' p (post' ++ .next o :: post) (by rw [he, e]; simp))
    (fun pre' p post' e => hpass pre' p (post' ++ .next o :: post) (by rw [he, e]; simp))
    (fun hc => hstay (by rw [he]; exact List.mem_append_left _ hc)) (fun q t hc => hsz q t (by rw [he]; exact List.mem_append_left _ hc))
  obtain ⟨⟨l, -, hturn⟩, -⟩ := next_turn all o _ (hi.room.cap o) (hpass pre o post he)
  change HistOut.stop = (HistSplit.next all _ o).2 at hout
  rw [← hout] at hturn
  obtain ⟨F, h1, h3⟩ := hi.rel
  refine eq_of_stop he ?_ hpre
  cases hturn with
  | raised _ _ _ _ _ h => exact absurd rfl h
  | stop hp hsrc _ _ h0 =>
    rw [hp, List.append_nil] at h3
    rw [hsrc, List.append_nil] at h1
    rw [h3, h1]

/-- The two situations the theorems above speak about. After registration: -/
theorem C140_joined (s : HistSplit β) (o : Nat) (size : Option Nat) (t : Treatment) (ho : o ∉ s.regs) :
    (s.register o size t).2 = .ok ∧ o ∈ (s.register o size t).1.regs ∧ (s.register o size t).1.queue o = [] ∧
    (s.register o size t).1.src = s.src ∧ (s.register o size t).1.treat o = t ∧ (s.register o size t).1.cap o = size.getD s.size := by
  unfold HistSplit.register
  rw [if_neg ho]
  simp

/-- The hypotheses of `C140_joined` are met: -/
example := C140_joined (β := ℕ) (HistSplit.new 3) 1 (some 5) .error (by simp [HistSplit.new])

/-- and when the source is started, by the first request of any object `p`, for everybody who is registered: all blocks. -/
theorem C140_started (all : List β) (s : HistSplit β) (p : Nat) (hp : p ∈ s.regs) (hg : s.gen p = .notStarted) (hs : s.sourceExists = false)
    (ops : List HistOp) : s.run all (.next p :: ops) = (s.begin all p).run all (.next p :: ops) ∧ (s.begin all p).src = all ∧
    (s.begin all p).sourceExists = true ∧ (s.begin all p).regs = s.regs ∧ ∀ o ∈ s.regs, (s.begin all p).queue o = [] := by
  have hb : s.begin all p = { s.createSource all with gen := fun u => if u = p then .active s.toInspect else s.gen u } := by
    unfold HistSplit.begin
    rw [if_neg (by rw [hs]; simp)]
    rfl
  have e : s.step all (.next p) = (s.begin all p).step all (.next p) := by
    show s.next all p = (s.begin all p).next all p
    have hg' : (s.begin all p).gen p = .active s.toInspect := by rw [hb]; exact if_pos rfl
    conv_lhs => unfold HistSplit.next
    conv_rhs => unfold HistSplit.next
    rw [hg, hg']
    dsimp only
    rw [if_pos hp]
  refine ⟨?_, by rw [hb]; rfl, by rw [hb]; rfl, by rw [hb]; rfl, fun o ho => ?_⟩
  · simp only [HistSplit.run, e]
  · rw [hb]
    show (if o ∈ s.regs then [] else s.queue o) = []
    rw [if_pos ho]

/-- The hypotheses of `C140_started` are met: -/
example := C140_started [10, 20] ((HistSplit.new 3).register 0 none .error).1 0 (by decide) (by decide) (by decide) [.next 0]

/-! ### no failure for another reason -/

private structure SoundInv (s : HistSplit β) : Prop where
  gens : ∀ p l, s.gen p = .active l → p ∈ s.regs ∧ ∀ u ∈ l, u ∈ s.regs

private theorem inspect_ok (l : List Nat) (s : HistSplit β) (h : ∀ u ∈ l, u ∈ s.regs) : (s.inspect l).2 = true := by
  induction l generalizing s with
  | nil => rfl
  | cons p l ih =>
    unfold HistSplit.inspect
    rw [if_pos (h p (List.mem_cons_self ..))]
    refine ih _ fun u hu => ?_
    split
    · exact h u (List.mem_cons_of_mem _ hu)
    · exact h u (List.mem_cons_of_mem _ hu)

private theorem loop_sound (p : Nat) (l : List Nat) (src : List β) : ∀ s : HistSplit β, p ∈ s.regs → (∀ u ∈ l, u ∈ s.regs) →
    (HistSplit.loop p l src s).2 ≠ .keyError ∧ (HistSplit.loop p l src s).2 ≠ .osError ∧ (HistSplit.loop p l src s).1.regs = s.regs ∧
    ∀ q, (HistSplit.loop p l src s).1.gen q = s.gen q ∨ (HistSplit.loop p l src s).1.gen q = .done := by
  have hfin : ∀ (s t : HistSplit β), t.gen = s.gen → ∀ q, (t.finish p).gen q = s.gen q ∨ (t.finish p).gen q = .done := by
    intro s t e q
    simp only [HistSplit.finish]
    by_cases hq : q = p
    · rw [if_pos hq]; exact Or.inr rfl
    · rw [if_neg hq, e]; exact Or.inl rfl
  induction src with
  | nil =>
    intro s hp hl
    obtain ⟨v, hi, -, -⟩ := inspect_eq l s
    unfold HistSplit.loop
    by_cases hv : s.overflow = true
    · simp only [if_pos hv]
      exact ⟨by simp, by simp, rfl, hfin s s rfl⟩
    · simp only [if_neg hv, if_pos hp]
      cases hq : s.queue p with
      | cons b q => exact ⟨by simp, by simp, rfl, fun _ => Or.inl rfl⟩
      | nil =>
        simp only [if_pos (inspect_ok l s hl)]
        rw [hi]
        exact ⟨by simp, by simp, rfl, hfin s _ rfl⟩
  | cons b rest ih =>
    intro s hp hl
    obtain ⟨v, hi, -, -⟩ := inspect_eq l s
    unfold HistSplit.loop
    by_cases hv : s.overflow = true
    · simp only [if_pos hv]
      exact ⟨by simp, by simp, rfl, hfin s s rfl⟩
    · simp only [if_neg hv, if_pos hp]
      cases hq : s.queue p with
      | cons b q => exact ⟨by simp, by simp, rfl, fun _ => Or.inl rfl⟩
      | nil =>
        simp only [if_pos (inspect_ok l s hl)]
        rw [hi]
        exact ih ((({ s with overflow := v } : HistSplit β)).fill b rest) hp hl

/-- **C140.** If an object is removed only when its own generator is not running and no running generator began while it was registered with
the treatment 'error' or 'warning', a generator fails for no other reason than a full buffer (or because its object was not registered when
it began). -/
theorem C140_no_keyerror (all : List β) (s : HistSplit β) (hs : ∀ p l, s.gen p = .active l → p ∈ s.regs ∧ ∀ u ∈ l, u ∈ s.regs)
    (ops : List HistOp) (hrem : ∀ pre r post, ops = pre ++ .remove r :: post → ∀ p l, (s.run all pre).1.gen p = .active l → p ≠ r ∧ r ∉ l) :
    ∀ p, (.next p, .keyError) ∉ (s.run all ops).2 := by
  induction ops generalizing s with
  | nil => intro p h; cases h
  | cons op ops ih =>
    intro p hm
    have hrem' : ∀ pre r post, ops = pre ++ .remove r :: post → ∀ q l, ((s.step all op).1.run all pre).1.gen q = .active l → q ≠ r ∧ r ∉ l :=
      fun pre r post e => hrem (op :: pre) r post (by rw [e]; rfl)
    have key : (∀ q l, (s.step all op).1.gen q = .active l → q ∈ (s.step all op).1.regs ∧ ∀ u ∈ l, u ∈ (s.step all op).1.regs) ∧
        ∀ q, op = .next q → (s.step all op).2 ≠ .keyError := by
      cases op with
      | register q size t =>
        refine ⟨?_, fun q e => by cases e⟩
        show ∀ q' l, (s.register q size t).1.gen q' = .active l → q' ∈ (s.register q size t).1.regs ∧ ∀ u ∈ l, u ∈ (s.register q size t).1.regs
        unfold HistSplit.register
        split
        · exact hs
        · exact fun q' l e => ⟨List.mem_append_left _ (hs q' l e).1, fun u hu => List.mem_append_left _ ((hs q' l e).2 u hu)⟩
      | remove r =>
        refine ⟨?_, fun q e => by cases e⟩
        show ∀ q' l, (s.remove r).1.gen q' = .active l → q' ∈ (s.remove r).1.regs ∧ ∀ u ∈ l, u ∈ (s.remove r).1.regs
        have hr := hrem [] r ops rfl
        unfold HistSplit.remove
        split
        · intro q' l e
          obtain ⟨h1, h2⟩ := hr q' l e
          refine ⟨List.mem_filter.2 ⟨(hs q' l e).1, by simpa using h1⟩, fun u hu => List.mem_filter.2 ⟨(hs q' l e).2 u hu, ?_⟩⟩
          have : u ≠ r := fun e => h2 (e ▸ hu)
          simpa using this
        · exact hs
      | restart q =>
        refine ⟨fun q' l e => ?_, fun q e => by cases e⟩
        by_cases hq : q' = q
        · simp [HistSplit.step, hq] at e
        · exact hs q' l (by simpa [HistSplit.step, hq] using e)
      | next q =>
        show (∀ q' l, (s.next all q).1.gen q' = .active l → q' ∈ (s.next all q).1.regs ∧ ∀ u ∈ l, u ∈ (s.next all q).1.regs) ∧
          ∀ q', HistOp.next q = .next q' → (s.next all q).2 ≠ .keyError
        unfold HistSplit.next
        cases hg : s.gen q with
        | done => exact ⟨hs, fun _ _ => by simp⟩
        | active l =>
          obtain ⟨h1, h2⟩ := hs q l hg
          obtain ⟨e1, -, e2, e3⟩ := loop_sound q l s.src s h1 h2
          refine ⟨fun q' l' e => ?_, fun _ _ => e1⟩
          dsimp only at e ⊢
          rw [e2]
          rcases e3 q' with e4 | e4 <;> rw [e4] at e
          · exact hs q' l' e
          · cases e
        | notStarted =>
          dsimp only
          by_cases hreg : q ∈ s.regs
          · rw [if_pos hreg]
            have hregs : (s.begin all q).regs = s.regs := by
              unfold HistSplit.begin
              dsimp only
              split <;> rfl
            have hgen : ∀ u, (s.begin all q).gen u = if u = q then .active s.toInspect else s.gen u := by
              intro u
              unfold HistSplit.begin
              dsimp only
              split
              · rfl
              · split <;> rfl
            have hins : ∀ u ∈ s.toInspect, u ∈ s.regs := fun u hu => List.mem_of_mem_filter hu
            obtain ⟨e1, -, e2, e3⟩ := loop_sound q s.toInspect (s.begin all q).src (s.begin all q) (by rw [hregs]; exact hreg)
              (by rw [hregs]; exact hins)
            refine ⟨fun q' l' e => ?_, fun _ _ => e1⟩
            rw [e2, hregs]
            rcases e3 q' with e4 | e4 <;> rw [e4] at e
            · rw [hgen] at e
              by_cases hq : q' = q
              · rw [if_pos hq] at e; cases e; exact ⟨hq ▸ hreg, hins⟩
              · rw [if_neg hq] at e; exact hs q' l' e
            · cases e
          · rw [if_neg hreg]
            refine ⟨fun q' l' e => ?_, fun _ _ => by simp⟩
            simp only [HistSplit.finish] at e ⊢
            by_cases hq : q' = q
            · rw [if_pos hq] at e; cases e
            · rw [if_neg hq] at e; exact hs q' l' e
    rcases List.mem_cons.1 hm with h | h
    · have h1 : HistOp.next p = op := congrArg Prod.fst h
      have h2 : HistOut.keyError = (s.step all op).2 := congrArg Prod.snd h
      exact key.2 p h1.symm h2.symm
    · exact ih _ key.1 hrem' p h

/-- The theorems above speak about this history: the first object has received a block when the second one joins; it receives what is left of
the source. -/
example : received 1 (HistSplit.run [10, 20, 30] (HistSplit.new 3) [.register 0 none .error, .next 0, .register 1 none .error, .restart 0,
      .next 1, .next 0, .next 1, .next 1]).2 = [20, 30] := by decide

/-- **C140, violated.** Removing an object makes the next request of another one fail: its generator still inspects the removed object. -/
theorem C140_remove_violated :
    (HistSplit.run [10, 20, 30] (HistSplit.new 100) [.register 0 none .error, .register 1 none .error, .next 0, .remove 1, .next 0]).2.map (·.2) =
      [.ok, .ok, .block 10, .ok, .keyError] := by
  decide +kernel

/-- **C140, violated.** An object with the treatment 'error' that is registered while another one is running loses blocks without an error:
the running generator does not inspect it. -/
theorem C140_join_violated :
    (HistSplit.run [10, 20, 30, 40] (HistSplit.new 1) [.register 0 none .error, .next 0, .register 1 none .error, .next 0, .next 0, .next 1]).2.map
      (·.2) = [.ok, .block 10, .ok, .block 20, .block 30, .block 30] := by
  decide +kernel

/-- Two objects are registered, the first has started its generator. -/
private def begunHist : HistSplit ℕ := (((HistSplit.new 3).register 0 none .error).1.register 1 none .error).1.begin [10, 20, 30] 0

private theorem histEx_cases {P : List HistOp → Nat → Prop} (h0 : P [] 1) (h1 : P [.next 1] 0) (h2 : P [.next 1, .next 0] 0) :
    ∀ pre p post, ([.next 1, .next 0, .next 0] : List HistOp) = pre ++ .next p :: post → P pre p := by
  intro pre p post h
  match pre with
  | [] =>
    simp only [List.nil_append, List.cons.injEq, HistOp.next.injEq] at h
    obtain ⟨rfl, -⟩ := h
    exact h0
  | [_] =>
    simp only [List.cons_append, List.nil_append, List.cons.injEq, HistOp.next.injEq] at h
    obtain ⟨rfl, rfl, -⟩ := h
    exact h1
  | [_, _] =>
    simp only [List.cons_append, List.nil_append, List.cons.injEq, HistOp.next.injEq] at h
    obtain ⟨rfl, rfl, rfl, -⟩ := h
    exact h2
  | _ :: _ :: _ :: _ => have := congrArg List.length h; simp at this

private theorem histEx_pass : SamePass [10, 20, 30] begunHist [.next 1, .next 0, .next 0] :=
  histEx_cases (P := fun pre p => (begunHist.run [10, 20, 30] pre).1.gen p = .notStarted → (begunHist.run [10, 20, 30] pre).1.sourceExists = true)
    (fun _ => by decide) (fun _ => by decide) (fun _ => by decide)

private theorem histEx_size : ∀ q t, .register q (some 0) t ∉ ([.next 1, .next 0, .next 0] : List HistOp) := fun q t h => by simp at h

/-- The hypotheses of `C140_subsequence` are met: -/
example := C140_subsequence [10, 20, 30] begunHist (by decide) (by decide) 0 (by decide) (by decide) [.next 1, .next 0, .next 0] histEx_pass
  (by simp) histEx_size

/-- The hypotheses of `C140_keeps_up` are met: -/
example := C140_keeps_up [10, 20, 30] begunHist (by decide) (by decide) 0 (by decide) (by decide) [.next 1, .next 0, .next 0]
  (histEx_cases (P := fun pre _ => ((begunHist.run [10, 20, 30] pre).1.queue 0).length < (begunHist.run [10, 20, 30] pre).1.cap 0)
    (by decide) (by decide) (by decide)) histEx_pass (by simp) histEx_size

/-- The hypotheses of `C140_watched` are met: -/
example := C140_watched [10, 20, 30] begunHist (by decide) (by decide) 0 (by decide) (by decide) (by decide) (by decide)
  (fun p l h => by
    by_cases hp : p = 0
    · subst hp
      have : begunHist.gen 0 = .active [0, 1] := by decide
      rw [this] at h
      cases h
      decide
    · have : begunHist.gen p = .notStarted := by simp [begunHist, HistSplit.begin, HistSplit.register, HistSplit.new, HistSplit.createSource, hp]
      rw [this] at h
      cases h) [.next 1, .next 0, .next 0] histEx_pass (by simp) histEx_size

end Acoular
