import Verif.Model.Splitter

/-!
# Property theorems: `SampleSplitter` (C06)
-/

namespace Acoular

variable {β : Type _}

/-- Invariant of one source pass.  `got o` are the blocks object `o` has received, `fetched` the blocks
taken from the source. -/
private structure SInv (all : List β) (B : Nat) (fetched : List β) (got : Nat → List β) (s : Splitter β) : Prop where
  cap : ∀ o ∈ s.objs, s.cap o = B
  glob : s.globalSize = some B
  src : fetched ++ s.src = all
  len : ∀ o ∈ s.objs, (s.queue o).length ≤ B
  exact_ : ∀ o ∈ s.objs, s.treat o = .error → s.overflow = false → got o ++ s.queue o = fetched
  pre : ∀ o ∈ s.objs, s.treat o = .error → got o <+: fetched
  sub : ∀ o ∈ s.objs, (got o ++ s.queue o).Sublist fetched

private def gotAfter (got : Nat → List β) (o : Nat) (out : SplitOut β) : Nat → List β := fun p =>
  match out with
  | .block b => if p = o then got p ++ [b] else got p
  | _ => got p

private theorem dequePush_length (cap : Nat) (q : List β) (b : β) : (dequePush cap q b).length ≤ cap := by
  simp [dequePush]; omega

private theorem dequePush_lt {cap : Nat} {q : List β} (h : q.length < cap) (b : β) :
    dequePush cap q b = q ++ [b] := by
  simp only [dequePush, List.length_append, List.length_singleton]
  rw [show q.length + 1 - cap = 0 by omega, List.drop_zero]

private theorem dequePush_sublist (cap : Nat) (q : List β) (b : β) : (dequePush cap q b).Sublist (q ++ [b]) :=
  List.drop_sublist _ _

private theorem SInv.fetch {all : List β} {B : Nat} {fetched : List β} {got : Nat → List β} {s : Splitter β}
    (hi : SInv all B fetched got s) (b : β) (rest : List β) (hs : s.src = b :: rest) :
    SInv all B (fetched ++ [b]) got { (s.inspect.fill b) with src := rest } := by
  refine ⟨hi.cap, hi.glob, ?_, ?_, ?_, ?_, ?_⟩
  · have := hi.src; rw [hs] at this; simpa using this
  · intro o ho
    have ho' : o ∈ s.objs := ho
    show (if o ∈ s.objs then dequePush (s.cap o) (s.queue o) b else s.queue o).length ≤ B
    rw [if_pos ho', ← hi.cap o ho']
    exact dequePush_length ..
  · intro o ho ht hov
    have ho' : o ∈ s.objs := ho
    have ht' : s.treat o = .error := ht
    have hov' : (s.overflow || s.objs.any fun o => decide (s.treat o = .error ∧ some (s.queue o).length = s.globalSize)) = false := hov
    rw [Bool.or_eq_false_iff, List.any_eq_false] at hov'
    have hne := hov'.2 o ho'
    rw [hi.glob] at hne
    have hlt : (s.queue o).length < s.cap o := by
      rw [hi.cap o ho']
      have := hi.len o ho'
      have : (s.queue o).length ≠ B := by
        intro e; exact hne (by simp [ht', e])
      omega
    show got o ++ (if o ∈ s.objs then dequePush (s.cap o) (s.queue o) b else s.queue o) = _
    rw [if_pos ho', dequePush_lt hlt, ← List.append_assoc, hi.exact_ o ho' ht' hov'.1]
  · intro o ho ht
    exact (hi.pre o ho ht).trans (List.prefix_append _ _)
  · intro o ho
    have ho' : o ∈ s.objs := ho
    show (got o ++ (if o ∈ s.objs then dequePush (s.cap o) (s.queue o) b else s.queue o)).Sublist _
    rw [if_pos ho']
    have h1 := hi.sub o ho'
    have h2 : (got o ++ dequePush (s.cap o) (s.queue o) b).Sublist (got o ++ (s.queue o ++ [b])) :=
      (List.Sublist.refl _).append (dequePush_sublist ..)
    rw [← List.append_assoc] at h2
    exact h2.trans (h1.append (List.Sublist.refl _))

/-- A block popped from the buffer. -/
private theorem SInv.pop {all : List β} {B : Nat} {fetched : List β} {got : Nat → List β} {s : Splitter β} {o : Nat}
    (ho : o ∈ s.objs) (hi : SInv all B fetched got s) (hov' : s.overflow = false) (b : β) (q : List β)
    (hq : s.queue o = b :: q) :
    SInv all B fetched (fun p => if p = o then got p ++ [b] else got p)
      { s with queue := fun p => if p = o then q else s.queue p } := by
  refine ⟨hi.cap, hi.glob, hi.src, ?_, ?_, ?_, ?_⟩
  · intro p hp
    show (if p = o then q else s.queue p).length ≤ B
    split
    · have := hi.len o ho; rw [hq] at this; simp at this; omega
    · exact hi.len p hp
  · intro p hp ht hov2
    show (if p = o then got p ++ [b] else got p) ++ (if p = o then q else s.queue p) = fetched
    split
    · next h =>
      subst h
      have := hi.exact_ p hp ht hov'
      rw [hq] at this; simpa using this
    · exact hi.exact_ p hp ht hov'
  · intro p hp ht
    show (if p = o then got p ++ [b] else got p) <+: fetched
    split
    · next h =>
      subst h
      have := hi.exact_ p hp ht hov'
      rw [hq] at this
      exact ⟨q, by simpa using this⟩
    · exact hi.pre p hp ht
  · intro p hp
    show ((if p = o then got p ++ [b] else got p) ++ (if p = o then q else s.queue p)).Sublist fetched
    split
    · next h =>
      subst h
      have := hi.sub p hp
      rw [hq] at this; simpa using this
    · exact hi.sub p hp

/-- What one call of the loop does. -/
private theorem loop_spec {all : List β} {B : Nat} (o : Nat) (src : List β) :
    ∀ (s : Splitter β) (fetched : List β) (got : Nat → List β), s.src = src → o ∈ s.objs →
      SInv all B fetched got s → s.gen o = .active →
      ∃ fetched', let r := s.loop o src
        r.1.objs = s.objs ∧ r.1.treat = s.treat ∧
        SInv all B fetched' (gotAfter got o r.2) r.1 ∧
        (r.2 = .stop → (s.treat o = .error → got o = all)) ∧
        (r.2 ≠ .stop → r.1.sourceExists = s.sourceExists) ∧
        (∀ p, r.1.gen p = .notStarted ↔ s.gen p = .notStarted) := by
  induction src with
  | nil =>
    intro s fetched got hsrc ho hi hg
    unfold Splitter.loop
    have hgen : ∀ p, (if p = o then GenState.done else s.gen p) = .notStarted ↔ s.gen p = .notStarted := by
      intro p; split
      · next h => subst h; simp [hg]
      · rfl
    by_cases hov : s.overflow = true
    · refine ⟨fetched, ?_⟩
      rw [if_pos hov]
      exact ⟨rfl, rfl, ⟨hi.cap, hi.glob, hi.src, hi.len, hi.exact_, hi.pre, hi.sub⟩, by simp, by simp, hgen⟩
    · rw [if_neg hov]
      have hov' : s.overflow = false := by simpa using hov
      cases hq : s.queue o with
      | cons b q =>
        refine ⟨fetched, rfl, rfl, hi.pop ho hov' b q hq, by simp, by simp, by simp⟩
      | nil =>
        refine ⟨fetched, ?_⟩
        have hfa : fetched = all := by have := hi.src; rw [hsrc] at this; simpa using this
        refine ⟨rfl, rfl, ⟨hi.cap, hi.glob, hi.src, hi.len, ?_, hi.pre, hi.sub⟩, ?_, by simp, hgen⟩
        · intro p hp ht hov2
          exact hi.exact_ p hp ht hov'
        · intro _ ht
          have := hi.exact_ o ho ht hov'
          rw [hq] at this
          rw [← hfa]; simpa using this
  | cons b rest ih =>
    intro s fetched got hsrc ho hi hg
    unfold Splitter.loop
    have hgen : ∀ p, (if p = o then GenState.done else s.gen p) = .notStarted ↔ s.gen p = .notStarted := by
      intro p; split
      · next h => subst h; simp [hg]
      · rfl
    by_cases hov : s.overflow = true
    · refine ⟨fetched, ?_⟩
      rw [if_pos hov]
      exact ⟨rfl, rfl, ⟨hi.cap, hi.glob, hi.src, hi.len, hi.exact_, hi.pre, hi.sub⟩, by simp, by simp, hgen⟩
    · rw [if_neg hov]
      have hov' : s.overflow = false := by simpa using hov
      cases hq : s.queue o with
      | cons b' q =>
        refine ⟨fetched, rfl, rfl, hi.pop ho hov' b' q hq, by simp, by simp, by simp⟩
      | nil =>
        exact ih { (s.inspect.fill b) with src := rest } (fetched ++ [b]) got rfl ho (hi.fetch b rest hsrc) hg

private theorem run_append (all : List β) (s : Splitter β) (xs ys : List Nat) :
    s.run all (xs ++ ys) = (((s.run all xs).1.run all ys).1, (s.run all xs).2 ++ ((s.run all xs).1.run all ys).2) := by
  induction xs generalizing s with
  | nil => rfl
  | cons x xs ih => simp only [List.cons_append, Splitter.run, ih]

private theorem delivered_append (o : Nat) (a b : List (Nat × SplitOut β)) :
    delivered o (a ++ b) = delivered o a ++ delivered o b := by
  simp [delivered]

private theorem delivered_single (o p : Nat) (r : SplitOut β) :
    delivered o [(p, r)] = match r with
      | .block b => if o = p then [b] else []
      | _ => [] := by
  cases r with
  | block b =>
    by_cases h : o = p
    · subst h; simp [delivered]
    · have h' : ¬ p = o := fun e => h e.symm
      simp [delivered, h, h']
  | _ => simp [delivered]

/-- State of a whole schedule: nothing requested yet, or one source pass is running. -/
private structure RunInv (all : List β) (B : Nat) (objs : List Nat) (treat : Nat → Treatment) (sched : List Nat)
    (s : Splitter β) (outs : List (Nat × SplitOut β)) : Prop where
  hobjs : s.objs = objs
  htreat : s.treat = treat
  gens : ∀ o ∈ objs, s.gen o = .notStarted ↔ o ∉ sched
  state : (sched = [] ∧ s.sourceExists = false ∧ s.globalSize = some B ∧ (∀ o ∈ objs, s.cap o = B)) ∨
    ((∃ fetched, SInv all B fetched (fun o => delivered o outs) s) ∧
      (s.sourceExists = true ∨ ∃ o, (o, SplitOut.stop) ∈ outs))
  stopped : ∀ o ∈ objs, (o, SplitOut.stop) ∈ outs → treat o = .error → delivered o outs = all

private theorem run_inv (all : List β) (B : Nat) (objs : List Nat) (treat : Nat → Treatment)
    (cap : Nat → Nat) (hcap : ∀ o ∈ objs, cap o = B) (sched : List Nat) :
    (∀ o ∈ sched, o ∈ objs) →
    (∀ pre o post, sched = pre ++ o :: post → o ∉ pre →
      ∀ x ∈ ((Splitter.init objs cap treat (some B)).run all pre).2, x.2 ≠ .stop) →
    RunInv all B objs treat sched ((Splitter.init objs cap treat (some B)).run all sched).1
      ((Splitter.init objs cap treat (some B)).run all sched).2 := by
  -- induction from the right
  have key : ∀ n (sched : List Nat), sched.length = n →
      (∀ o ∈ sched, o ∈ objs) →
      (∀ pre o post, sched = pre ++ o :: post → o ∉ pre →
        ∀ x ∈ ((Splitter.init objs cap treat (some B)).run all pre).2, x.2 ≠ .stop) →
      RunInv all B objs treat sched ((Splitter.init objs cap treat (some B)).run all sched).1
        ((Splitter.init objs cap treat (some B)).run all sched).2 := by
    intro n
    induction n with
    | zero =>
      intro sched hl _ _
      obtain rfl := List.eq_nil_of_length_eq_zero hl
      refine ⟨rfl, rfl, ?_, Or.inl ⟨rfl, rfl, rfl, hcap⟩, ?_⟩
      · intro o _; simp [Splitter.run, Splitter.init]
      · intro o _ h; simp [Splitter.run] at h
    | succ n ih =>
      intro sched hl hmem hlate
      have hne : sched ≠ [] := by intro e; subst e; simp at hl
      obtain ⟨pre, o, rfl⟩ : ∃ pre o, sched = pre ++ [o] :=
        ⟨sched.dropLast, sched.getLast hne, (List.dropLast_concat_getLast hne).symm⟩
      have hpre : RunInv all B objs treat pre _ _ := ih pre (by simp at hl; omega)
        (fun p hp => hmem p (by simp [hp]))
        (fun pre' o' post' e hn => hlate pre' o' (post' ++ [o]) (by rw [e]; simp) hn)
      have hlate_o := hlate pre o [] rfl
      have ho : o ∈ objs := hmem o (by simp)
      rw [run_append]
      generalize hR : (Splitter.init objs cap treat (some B)).run all pre = R at hpre hlate_o
      obtain ⟨s, outs⟩ := R
      simp only at hpre hlate_o ⊢
      have hrun1 : (s.run all [o]) = ((s.next all o).1, [(o, (s.next all o).2)]) := rfl
      rw [hrun1]
      simp only
      -- the three cases of `next`
      by_cases hdone : s.gen o = .done
      · have hnext : s.next all o = (s, .finished) := by rw [Splitter.next, hdone]
        rw [hnext]
        have hd : ∀ p, delivered p (outs ++ [(o, SplitOut.finished)]) = delivered p outs := by
          intro p; rw [delivered_append, delivered_single]; simp
        have hin : o ∈ pre := by
          apply Classical.byContradiction
          intro h; rw [(hpre.gens o ho).2 h] at hdone; cases hdone
        refine ⟨hpre.hobjs, hpre.htreat, ?_, ?_, ?_⟩
        · intro p hp
          rw [hpre.gens p hp]
          constructor
          · intro h h2
            rcases List.mem_append.1 h2 with h3 | h3
            · exact h h3
            · simp at h3; subst h3; exact h hin
          · intro h h2; exact h (by simp [h2])
        · rcases hpre.state with ⟨e, _⟩ | ⟨⟨f, hf⟩, h2⟩
          · subst e; simp at hin
          · right
            refine ⟨⟨f, ?_⟩, ?_⟩
            · simpa only [hd] using hf
            · rcases h2 with h2 | ⟨p, hp⟩
              · exact Or.inl h2
              · exact Or.inr ⟨p, by simp [hp]⟩
        · intro p hp h ht
          rw [hd]
          apply hpre.stopped p hp _ ht
          simpa using h
      · -- enter the loop from a state `s2` inside a source pass
        obtain ⟨s2, f2, hnext, hinv2, hobj2, htr2, hg2, hgo2, hex2⟩ : ∃ (s2 : Splitter β) (f2 : List β),
            s.next all o = s2.loop o s2.src ∧
            SInv all B f2 (fun p => delivered p outs) s2 ∧ s2.objs = objs ∧ s2.treat = treat ∧
            s2.gen o = .active ∧ (∀ p, p ≠ o → s2.gen p = s.gen p) ∧
            (s2.sourceExists = true ∨ ∃ p, (p, SplitOut.stop) ∈ outs) := by
          cases hgo : s.gen o with
          | done => exact absurd hgo hdone
          | active =>
            have hin : pre ≠ [] := by
              rintro rfl
              rw [(hpre.gens o ho).2 (by simp)] at hgo; cases hgo
            rcases hpre.state with ⟨e, _⟩ | ⟨⟨f, hf⟩, h2⟩
            · exact absurd e hin
            · exact ⟨s, f, by rw [Splitter.next, hgo], hf, hpre.hobjs, hpre.htreat, hgo, fun _ _ => rfl, h2⟩
          | notStarted =>
            have hnin := (hpre.gens o ho).1 hgo
            rcases hpre.state with ⟨e, hex, hglob, hcap'⟩ | ⟨⟨f, hf⟩, h2⟩
            · subst e
              have houts : outs = [] := by
                have := congrArg Prod.snd hR; simpa [Splitter.run] using this.symm
              subst houts
              refine ⟨_, [], by rw [Splitter.next, hgo], ?_, ?_, ?_, ?_, ?_, ?_⟩
              · rw [hex]
                refine ⟨?_, hglob, rfl, ?_, ?_, ?_, ?_⟩
                · intro p hp; exact hcap' p (by rw [← hpre.hobjs]; exact hp)
                · intro p hp
                  have hp' : p ∈ s.objs := hp
                  simp [Splitter.createSource, hp']
                · intro p hp _ _
                  have hp' : p ∈ s.objs := hp
                  simp [Splitter.createSource, hp', delivered]
                · intro p _ _; simp [delivered]
                · intro p hp
                  have hp' : p ∈ s.objs := hp
                  simp [Splitter.createSource, hp', delivered]
              · rw [hex]; exact hpre.hobjs
              · rw [hex]; exact hpre.htreat
              · simp
              · intro p hp; rw [hex]; simp [hp, Splitter.createSource]
              · rw [hex]; exact Or.inl rfl
            · have hex : s.sourceExists = true := by
                rcases h2 with h2 | ⟨p, hp⟩
                · exact h2
                · exact absurd rfl (hlate_o hnin _ hp)
              refine ⟨{ s with gen := fun p => if p = o then .active else s.gen p }, f, ?_, ?_, hpre.hobjs,
                hpre.htreat, by simp, ?_, Or.inl hex⟩
              · rw [Splitter.next, hgo]; simp [hex]
              · exact ⟨hf.cap, hf.glob, hf.src, hf.len, hf.exact_, hf.pre, hf.sub⟩
              · intro p hp; simp [hp]
        obtain ⟨f', h1, h2, h3, h4, h5, h6⟩ := loop_spec (all := all) (B := B) o s2.src s2 f2 _ rfl
          (by rw [hobj2]; exact ho) hinv2 hg2
        rw [hnext]
        generalize hr : s2.loop o s2.src = r at h1 h2 h3 h4 h5 h6
        obtain ⟨s3, out⟩ := r
        simp only at h1 h2 h3 h4 h5 h6 ⊢
        have hdel : (fun p => delivered p (outs ++ [(o, out)])) = gotAfter (fun p => delivered p outs) o out := by
          funext p
          rw [delivered_append, delivered_single]
          unfold gotAfter
          cases out with
          | block b => by_cases h : p = o <;> simp [h]
          | _ => simp
        refine ⟨h1.trans hobj2, h2.trans htr2, ?_, ?_, ?_⟩
        · intro p hp
          rw [h6 p]
          by_cases hpo : p = o
          · subst hpo; simp [hg2]
          · rw [hgo2 p hpo, hpre.gens p hp]; simp [hpo]
        · right
          refine ⟨⟨f', ?_⟩, ?_⟩
          · rw [hdel]; exact h3
          · by_cases hst : out = .stop
            · subst hst; exact Or.inr ⟨o, by simp⟩
            · rw [h5 hst]
              rcases hex2 with h | ⟨p, hp⟩
              · exact Or.inl h
              · exact Or.inr ⟨p, by simp [hp]⟩
        · intro p hp hst ht
          rcases List.mem_append.1 hst with h | h
          · -- stopped before: nothing was delivered since
            have hprev := hpre.stopped p hp h ht
            have hpref := h3.pre p (by rw [h1, hobj2]; exact hp) (by rw [h2, htr2]; exact ht)
            have hfl : f'.length ≤ all.length := by
              have := congrArg List.length h3.src; simp at this; omega
            rw [congrFun hdel p]
            have hlen := hpref.length_le
            revert hlen
            unfold gotAfter
            cases out with
            | block b =>
              by_cases hpo : p = o
              · simp only [hpo, if_true]
                intro hlen
                rw [hpo] at hprev
                rw [hprev] at hlen
                simp at hlen; omega
              · simp only [hpo, if_false]; intro _; exact hprev
            | _ => intro _; exact hprev
          · simp only [List.mem_singleton, Prod.mk.injEq] at h
            obtain ⟨rfl, rfl⟩ := h
            rw [delivered_append, delivered_single]
            simp only [List.append_nil]
            exact h4 rfl (by rw [htr2]; exact ht)
  intro h1 h2
  exact key sched.length sched rfl h1 h2

/-- **C06** (positive part).  All registered objects use the buffer size that is set as the integer
`buffer_size` of the splitter, and no object starts its iteration after another one has been told that
the source is exhausted.  Then for every schedule of requests: what an object with treatment `error` has
received is a prefix of the source blocks (in order, no gap, no duplicate), it is the complete source if
the object's iteration ended normally, and an object that accepts losses received a subsequence of the
source blocks. -/
theorem C06_splitter_partial (all : List β) (B : Nat) (objs : List Nat) (treat : Nat → Treatment)
    (cap : Nat → Nat) (hcap : ∀ o ∈ objs, cap o = B) (sched : List Nat) (hsched : ∀ o ∈ sched, o ∈ objs)
    (hlate : ∀ pre o post, sched = pre ++ o :: post → o ∉ pre →
      ∀ x ∈ ((Splitter.init objs cap treat (some B)).run all pre).2, x.2 ≠ .stop) (o : Nat) (ho : o ∈ objs) :
    let outs := ((Splitter.init objs cap treat (some B)).run all sched).2
    (treat o = .error → delivered o outs <+: all) ∧
    (treat o = .error → (o, .stop) ∈ outs → delivered o outs = all) ∧
    (delivered o outs).Sublist all := by
  intro outs
  have h := run_inv all B objs treat cap hcap sched hsched hlate
  refine ⟨?_, ?_, ?_⟩
  · intro ht
    rcases h.state with ⟨e, _⟩ | ⟨⟨f, hf⟩, _⟩
    · subst e; simp [outs, Splitter.run, delivered]
    · have h1 := hf.pre o (by rw [h.hobjs]; exact ho) (by rw [h.htreat]; exact ht)
      exact h1.trans ⟨_, hf.src⟩
  · intro ht hst
    exact h.stopped o ho hst ht
  · rcases h.state with ⟨e, _⟩ | ⟨⟨f, hf⟩, _⟩
    · subst e; simp [outs, Splitter.run, delivered]
    · have h1 := hf.sub o (by rw [h.hobjs]; exact ho)
      have h2 : (delivered o outs).Sublist (delivered o outs ++
          ((Splitter.init objs cap treat (some B)).run all sched).1.queue o) := List.sublist_append_left _ _
      have h3 : f.Sublist all := by rw [← hf.src]; exact List.sublist_append_left _ _
      exact (h2.trans h1).trans h3

/-- The hypotheses are met: two objects, buffer of two blocks, alternating requests to the end. -/
example : let outs := ((Splitter.init [0, 1] (fun _ => 2) (fun _ => .error) (some 2)).run [10, 20, 30]
      [0, 1, 1, 0, 0, 1, 0, 1]).2
    delivered 0 outs = [10, 20, 30] ∧ delivered 1 outs = [10, 20, 30] ∧
      (0, SplitOut.stop) ∈ outs ∧ (1, SplitOut.stop) ∈ outs := by decide

/-- **C06** overflow is reported: with treatment `error` an object that lags behind by more than the
buffer size makes the requests fail instead of losing blocks. -/
example : ((Splitter.init [0, 1] (fun _ => 2) (fun _ => .error) (some 2)).run [10, 20, 30, 40]
      [1, 0, 0, 0, 0, 1]).2
    = [(1, .block 10), (0, .block 10), (0, .block 20), (0, .block 30), (0, .overflowError), (1, .overflowError)] := by
  decide

/-- **C06** fails for a per-object buffer size: `register_object(o, buffer_size=1)` on a splitter with the
default `buffer_size = 100` loses blocks of an object with treatment `error` without any error, because
the level is compared with the global size. -/
theorem C06_splitter_own_size_violated :
    ∃ (all : List Nat) (cap : Nat → Nat) (sched : List Nat),
      let outs := ((Splitter.init [0, 1] cap (fun _ => .error) (some 100)).run all sched).2
      delivered 1 outs = [10, 30] ∧ all = [10, 20, 30] ∧ (∀ x ∈ outs, x.2 ≠ .overflowError) :=
  ⟨[10, 20, 30], fun _ => 1, [1, 0, 0, 0, 1], by decide⟩

/-- **C06** fails for an object that starts after the source was exhausted by another one: the buffers
are cleared and refilled from the beginning, so a third object receives blocks twice. -/
theorem C06_splitter_late_start_violated :
    ∃ (all : List Nat) (sched : List Nat),
      let outs := ((Splitter.init [0, 1, 2] (fun _ => 100) (fun _ => .error) (some 100)).run all sched).2
      delivered 0 outs = [10, 10] ∧ all = [10, 20] ∧ (∀ x ∈ outs, x.2 ≠ .overflowError) :=
  ⟨[10, 20], [0, 1, 1, 1, 2, 0], by decide⟩

/-- Start of one request inside a source pass. -/
private theorem enter_loop {all : List β} {B : Nat} {objs : List Nat} {treat : Nat → Treatment} {cap : Nat → Nat} {pre : List Nat}
    {o : Nat} (ho : o ∈ objs) (s : Splitter β) (outs : List (Nat × SplitOut β))
    (hR : (Splitter.init objs cap treat (some B)).run all pre = (s, outs)) (hpre : RunInv all B objs treat pre s outs)
    (hlate : o ∉ pre → ∀ x ∈ outs, x.2 ≠ SplitOut.stop) (hdone : s.gen o ≠ .done) :
    ∃ (s2 : Splitter β) (f2 : List β), s.next all o = s2.loop o s2.src ∧ SInv all B f2 (fun p => delivered p outs) s2 ∧
      s2.objs = objs ∧ s2.treat = treat ∧ (s.overflow = false → s2.overflow = false) := by
  cases hgo : s.gen o with
  | done => exact absurd hgo hdone
  | active =>
    have hin : pre ≠ [] := by
      rintro rfl
      rw [(hpre.gens o ho).2 (by simp)] at hgo; cases hgo
    rcases hpre.state with ⟨e, _⟩ | ⟨⟨f, hf⟩, h2⟩
    · exact absurd e hin
    · exact ⟨s, f, by rw [Splitter.next, hgo], hf, hpre.hobjs, hpre.htreat, id⟩
  | notStarted =>
    have hnin := (hpre.gens o ho).1 hgo
    rcases hpre.state with ⟨e, hex, hglob, hcap'⟩ | ⟨⟨f, hf⟩, h2⟩
    · subst e
      have houts : outs = [] := by
        have := congrArg Prod.snd hR; simpa [Splitter.run] using this.symm
      subst houts
      refine ⟨_, [], by rw [Splitter.next, hgo], ?_, ?_, ?_, ?_⟩
      · rw [hex]
        refine ⟨?_, hglob, rfl, ?_, ?_, ?_, ?_⟩
        · intro p hp; exact hcap' p (by rw [← hpre.hobjs]; exact hp)
        · intro p hp
          have hp' : p ∈ s.objs := hp
          simp [Splitter.createSource, hp']
        · intro p hp _ _
          have hp' : p ∈ s.objs := hp
          simp [Splitter.createSource, hp', delivered]
        · intro p _ _; simp [delivered]
        · intro p hp
          have hp' : p ∈ s.objs := hp
          simp [Splitter.createSource, hp', delivered]
      · rw [hex]; exact hpre.hobjs
      · rw [hex]; exact hpre.htreat
      · intro _; rw [hex]; rfl
    · have hex : s.sourceExists = true := by
        rcases h2 with h2 | ⟨p, hp⟩
        · exact h2
        · exact absurd rfl (hlate hnin _ hp)
      refine ⟨{ s with gen := fun p => if p = o then .active else s.gen p }, f, ?_, ?_, hpre.hobjs, hpre.htreat, id⟩
      · rw [Splitter.next, hgo]; simp [hex]
      · exact ⟨hf.cap, hf.glob, hf.src, hf.len, hf.exact_, hf.pre, hf.sub⟩

private theorem loop_pop (o : Nat) (s : Splitter β) (src : List β) (b : β) (q : List β) (hov : s.overflow = false)
    (hq : s.queue o = b :: q) : (s.loop o src).1.overflow = false ∧ (s.loop o src).2 ≠ .overflowError := by
  unfold Splitter.loop
  rw [hov, hq]
  simp only [Bool.false_eq_true, if_false]
  exact ⟨trivial, by simp⟩

/-- No overflow as long as nobody is a full buffer behind. -/
private theorem loop_no_overflow {all : List β} {B : Nat} (o : Nat) (s : Splitter β) (fetched : List β) (got : Nat → List β)
    (ho : o ∈ s.objs) (hi : SInv all B fetched got s) (ht : ∀ p ∈ s.objs, s.treat p = .error) (hov : s.overflow = false)
    (hlag : ∀ p ∈ s.objs, (got o).length < (got p).length + B) :
    (s.loop o s.src).1.overflow = false ∧ (s.loop o s.src).2 ≠ .overflowError := by
  have hins : s.queue o = [] → s.inspect.overflow = false := by
    intro hq
    show (s.overflow || s.objs.any fun o => decide (s.treat o = .error ∧ some (s.queue o).length = s.globalSize)) = false
    rw [hov, Bool.false_or, List.any_eq_false]
    intro p hp hc
    have h1 := hi.exact_ o ho (ht o ho) hov
    have h2 := hi.exact_ p hp (ht p hp) hov
    rw [hq, List.append_nil] at h1
    have h3 := congrArg List.length h2
    rw [← h1, List.length_append] at h3
    have h4 := hlag p hp
    rw [hi.glob] at hc
    simp only [Option.some.injEq, decide_eq_true_eq] at hc
    omega
  unfold Splitter.loop
  rw [hov]
  simp only [Bool.false_eq_true, if_false]
  cases hq : s.queue o with
  | cons b q => exact ⟨by simp, by simp⟩
  | nil =>
    cases hs : s.src with
    | nil => exact ⟨hins hq, by simp⟩
    | cons b rest =>
      have hB : 0 < B := by have := hlag o ho; omega
      have hq2 : ({ (s.inspect.fill b) with src := rest } : Splitter β).queue o = [b] := by
        show (if o ∈ s.objs then dequePush (s.cap o) (s.queue o) b else s.queue o) = [b]
        rw [if_pos ho, hq, hi.cap o ho, dequePush_lt (by simpa using hB)]
        rfl
      have hov2 : ({ (s.inspect.fill b) with src := rest } : Splitter β).overflow = false := hins hq
      exact loop_pop o _ rest b [] hov2 hq2

/-- **C06** (part) The overflow error is not raised without cause: if all objects have treatment `error` and, at every
request, no object is a full buffer behind the requesting one, then every request is served. -/
theorem C06_splitter_no_spurious_partial (all : List β) (B : Nat) (objs : List Nat) (treat : Nat → Treatment)
    (ht : ∀ o ∈ objs, treat o = .error)
    (cap : Nat → Nat) (hcap : ∀ o ∈ objs, cap o = B) (sched : List Nat) (hsched : ∀ o ∈ sched, o ∈ objs)
    (hlate : ∀ pre o post, sched = pre ++ o :: post → o ∉ pre →
      ∀ x ∈ ((Splitter.init objs cap treat (some B)).run all pre).2, x.2 ≠ .stop)
    (hlag : ∀ pre p post, sched = pre ++ p :: post → ∀ o ∈ objs,
      let outs := ((Splitter.init objs cap treat (some B)).run all pre).2
      (delivered p outs).length < (delivered o outs).length + B) :
    ∀ x ∈ ((Splitter.init objs cap treat (some B)).run all sched).2, x.2 ≠ .overflowError := by
  have key : ∀ n (sched : List Nat), sched.length = n → (∀ o ∈ sched, o ∈ objs) →
      (∀ pre o post, sched = pre ++ o :: post → o ∉ pre →
        ∀ x ∈ ((Splitter.init objs cap treat (some B)).run all pre).2, x.2 ≠ .stop) →
      (∀ pre p post, sched = pre ++ p :: post → ∀ o ∈ objs,
        let outs := ((Splitter.init objs cap treat (some B)).run all pre).2
        (delivered p outs).length < (delivered o outs).length + B) →
      ((Splitter.init objs cap treat (some B)).run all sched).1.overflow = false ∧
      ∀ x ∈ ((Splitter.init objs cap treat (some B)).run all sched).2, x.2 ≠ .overflowError := by
    intro n
    induction n with
    | zero =>
      intro sched hl _ _ _
      obtain rfl := List.eq_nil_of_length_eq_zero hl
      exact ⟨rfl, by simp [Splitter.run]⟩
    | succ n ih =>
      intro sched hl hmem hlate hlag
      have hne : sched ≠ [] := by intro e; subst e; simp at hl
      obtain ⟨pre, o, rfl⟩ : ∃ pre o, sched = pre ++ [o] :=
        ⟨sched.dropLast, sched.getLast hne, (List.dropLast_concat_getLast hne).symm⟩
      have hmem' : ∀ p ∈ pre, p ∈ objs := fun p hp => hmem p (by simp [hp])
      have hlate' : ∀ pre' o' post', pre = pre' ++ o' :: post' → o' ∉ pre' →
          ∀ x ∈ ((Splitter.init objs cap treat (some B)).run all pre').2, x.2 ≠ .stop :=
        fun pre' o' post' e hn => hlate pre' o' (post' ++ [o]) (by rw [e]; simp) hn
      have hi := ih pre (by simp at hl; omega) hmem' hlate' (fun pre' p post e => hlag pre' p (post ++ [o]) (by rw [e]; simp))
      have hri := run_inv all B objs treat cap hcap pre hmem' hlate'
      have hl_o := hlate pre o [] rfl
      have hg_o := hlag pre o [] rfl
      have ho : o ∈ objs := hmem o (by simp)
      rw [run_append]
      generalize hR : (Splitter.init objs cap treat (some B)).run all pre = R at hi hri hl_o hg_o
      obtain ⟨s, outs⟩ := R
      simp only at hi hri hl_o hg_o ⊢
      have hrun1 : (s.run all [o]) = ((s.next all o).1, [(o, (s.next all o).2)]) := rfl
      rw [hrun1]
      simp only
      have step : (s.next all o).1.overflow = false ∧ (s.next all o).2 ≠ .overflowError := by
        by_cases hdone : s.gen o = .done
        · rw [Splitter.next, hdone]
          exact ⟨hi.1, by simp⟩
        · obtain ⟨s2, f2, e, hinv, h1, h2, h3⟩ := enter_loop ho s outs hR hri hl_o hdone
          rw [e]
          refine loop_no_overflow o s2 f2 _ (by rw [h1]; exact ho) hinv ?_ (h3 hi.1) ?_
          · intro p hp; rw [h2]; exact ht p (by rw [← h1]; exact hp)
          · intro p hp; exact hg_o p (by rw [← h1]; exact hp)
      refine ⟨step.1, ?_⟩
      intro x hx
      rcases List.mem_append.1 hx with h | h
      · exact hi.2 x h
      · rw [List.mem_singleton] at h
        subst h
        exact step.2
  exact (key sched.length sched rfl hsched hlate hlag).2

/-- A schedule that meets the hypotheses: the second object is two blocks behind, with a buffer of three. -/
example : (∀ k ≤ 7, let outs := ((Splitter.init [0, 1] (fun _ => 3) (fun _ => .error) (some 3)).run [10, 20, 30]
      ([0, 1, 0, 0, 1, 1, 0, 1].take k)).2
    ∀ p ∈ [0, 1], ∀ o ∈ [0, 1], (delivered p outs).length < (delivered o outs).length + 3) := by decide

/-- **C06** fails at the end of the source: the second object has never been more than a full buffer behind, and nothing
has been lost, but the request of the first one that ends its own iteration makes the buffered blocks of the second
inaccessible. -/
theorem C06_splitter_end_violated :
    ∃ (all : List Nat) (sched : List Nat),
      let outs := ((Splitter.init [0, 1] (fun _ => 2) (fun _ => .error) (some 2)).run all sched).2
      all = [10, 20, 30] ∧ outs = [(0, .block 10), (1, .block 10), (0, .block 20), (0, .block 30), (0, .stop), (1, .overflowError)] :=
  ⟨[10, 20, 30], [0, 1, 0, 0, 0, 1], by decide⟩

end Acoular
