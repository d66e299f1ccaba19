import Verif.Queue.Props

/-!
# How long a run waits (C143)

From the moment a run is in the queue, how many other runs are handed out before it is: those that were there with a
higher or the same priority, those of higher priority that came later, and at most one for each `GetRun` that was
already under way and past the run's channel. Nothing else: no run of the same priority that comes later, and no run of
lower priority that a later `GetRun` hands out.
-/

namespace Quark.Queue

variable {ρ : Type}

/-! ## Specification -/

/-- What happens from state `s` on, up to state `s'`. -/
inductive Leads (cap : Nat) (s : State ρ) : List (Event ρ) → State ρ → Prop
  | nil : Leads cap s [] s
  | step {evs s1 a s2 e} : Leads cap s evs s1 → step cap s1 a = some (s2, e) → Leads cap s (evs ++ [e]) s2

/-- All the runs that are handed out, with the channel they were in. -/
def handedOut (evs : List (Event ρ)) : List (ρ × Fin 4) :=
  evs.filterMap fun e => match e with
    | .took _ r q => some (r, q)
    | _ => none

/-- The runs that come with a priority above `p` (a smaller number). -/
def arrivedAbove (p : Fin 4) (evs : List (Event ρ)) : List ρ :=
  evs.filterMap fun e => match e with
    | .pushed _ r q => if q < p then some r else none
    | _ => none

/-- The runs waiting with a priority above `p`. -/
def waitingAbove (p : Fin 4) (s : State ρ) : Nat := ((List.finRange 4).map fun q => if q < p then (s.runs q).length else 0).sum

/-- The calls of `GetRun` that have found channel `p` empty and have not returned. -/
def pastChannel (p : Fin 4) (s : State ρ) : Nat :=
  s.threads.countP fun x => match x with
    | .scanning i => p.val < i
    | _ => false

/-! ## Proof -/

theorem Leads.reach {cap : Nat} {pre evs : List (Event ρ)} {s s' : State ρ} (h : Reach cap pre s) (hl : Leads cap s evs s') :
    Reach cap (pre ++ evs) s' := by
  induction hl with
  | nil => simpa using h
  | step _ hs ih => rw [← List.append_assoc]; exact .step ih hs

theorem Leads.fifo {cap : Nat} {pre evs : List (Event ρ)} {s s' : State ρ} (h : Reach cap pre s) (hl : Leads cap s evs s')
    (p : Fin 4) : s.runs p ++ pushes p evs = takes p evs ++ s'.runs p := by
  have h1 := C22_fifo h p
  have h2 := C22_fifo (hl.reach h) p
  rw [pushes_append, takes_append, h1, List.append_assoc, List.append_assoc] at h2
  exact List.append_cancel_left h2

/-- The runs handed out from channels below `p` (a larger number). -/
def takesBelow (p : Fin 4) (evs : List (Event ρ)) : List (ρ × Fin 4) := (handedOut evs).filter fun x => p < x.2
def takesAbove (p : Fin 4) (evs : List (Event ρ)) : List (ρ × Fin 4) := (handedOut evs).filter fun x => x.2 < p

theorem handedOut_append (a b : List (Event ρ)) : handedOut (a ++ b) = handedOut a ++ handedOut b :=
  List.filterMap_append

theorem takes_eq (p : Fin 4) (evs : List (Event ρ)) :
    (takes p evs).length = ((handedOut evs).filter fun x => x.2 = p).length := by
  induction evs with
  | nil => rfl
  | cons e evs ih =>
    have h1 : takes p (e :: evs) = takes p [e] ++ takes p evs := takes_append p [e] evs
    have h2 : handedOut (e :: evs) = handedOut [e] ++ handedOut evs := handedOut_append [e] evs
    rw [h1, h2, List.filter_append, List.length_append, List.length_append, ih]
    congr 1
    cases e with
    | took t r q => by_cases hq : q = p <;> simp [takes, handedOut, hq]
    | _ => rfl

theorem handedOut_length (p : Fin 4) (evs : List (Event ρ)) :
    (handedOut evs).length = (takesAbove p evs).length + (takes p evs).length + (takesBelow p evs).length := by
  rw [takes_eq]
  unfold takesAbove takesBelow
  induction handedOut evs with
  | nil => rfl
  | cons x l ih =>
    rcases lt_trichotomy x.2 p with h | h | h
    · have h1 : ¬ x.2 = p := fun e => by rw [e] at h; exact absurd h (by simp)
      have h2 : ¬ p < x.2 := fun e => absurd (Fin.lt_def.mp e) (by have := Fin.lt_def.mp h; omega)
      simp only [List.filter_cons, h, h1, h2, decide_true, decide_false, if_true, if_false, List.length_cons,
        Bool.false_eq_true]; omega
    · simp [h]; omega
    · have h1 : ¬ x.2 = p := fun e => by rw [e] at h; exact absurd h (by simp)
      have h2 : ¬ x.2 < p := fun e => absurd (Fin.lt_def.mp e) (by have := Fin.lt_def.mp h; omega)
      simp only [List.filter_cons, h, h1, h2, decide_true, decide_false, if_true, if_false, List.length_cons,
        Bool.false_eq_true]; omega

theorem waitingAbove_eq (p : Fin 4) (s : State ρ) : waitingAbove p s =
    (if 0 < p.val then (s.runs 0).length else 0) + (if 1 < p.val then (s.runs 1).length else 0) +
      (if 2 < p.val then (s.runs 2).length else 0) := by
  have hp := p.isLt
  simp only [waitingAbove, List.finRange_succ, List.finRange_zero, List.map_cons, List.map_nil, List.sum_cons,
    List.sum_nil, Fin.lt_def]
  have h3 : ¬ 3 < p.val := by omega
  simp [h3, Nat.add_assoc]

theorem waitingAbove_update (p q : Fin 4) (s s' : State ρ) (l : List ρ) (h : s'.runs = Function.update s.runs q l) :
    waitingAbove p s' + (if q < p then (s.runs q).length else 0) = waitingAbove p s + (if q < p then l.length else 0) := by
  rw [waitingAbove_eq, waitingAbove_eq, h]
  have hp := p.isLt
  have cases4 : q = 0 ∨ q = 1 ∨ q = 2 ∨ q = 3 := by omega
  rcases cases4 with rfl | rfl | rfl | rfl <;>
    simp only [Function.update_apply, Fin.lt_def, Fin.val_zero] <;> simp <;> (try split) <;> (try split) <;> (try split) <;> omega

theorem pastChannel_eq (p : Fin 4) (s : State ρ) : pastChannel p s = s.threads.countP (scansFrom (p.val + 1)) := by
  unfold pastChannel
  congr 1

theorem past_goto (p : Fin 4) {s s' : State ρ} {t : Nat} {x y : Thread ρ} (h : s.threads[t]? = some y)
    (hs : s'.threads = s.threads.set t x) :
    pastChannel p s' + (if scansFrom (p.val + 1) y then 1 else 0) =
      pastChannel p s + (if scansFrom (p.val + 1) x then 1 else 0) := by
  rw [pastChannel_eq, pastChannel_eq, hs]
  exact countP_goto h

/-- What a step does to the counts. -/
theorem step_counts {cap : Nat} {s s' : State ρ} {a : Act ρ} {e : Event ρ} (hs : step cap s a = some (s', e)) (p : Fin 4) :
    waitingAbove p s' + (takesAbove p [e]).length = waitingAbove p s + (arrivedAbove p [e]).length ∧
    (s.runs p ≠ [] → pastChannel p s' + (takesBelow p [e]).length ≤ pastChannel p s) := by
  cases a with
  | call c =>
    simp only [step, Option.some.injEq, Prod.mk.injEq] at hs
    obtain ⟨rfl, rfl⟩ := hs
    refine ⟨rfl, fun _ => ?_⟩
    rw [pastChannel_eq, pastChannel_eq]
    cases c <;> simp [Call.start, scansFrom, takesBelow, handedOut, List.countP_append]
  | hangup t =>
    simp only [step] at hs
    split at hs
    · rename_i ht
      simp only [Option.some.injEq, Prod.mk.injEq] at hs
      obtain ⟨rfl, rfl⟩ := hs
      have := past_goto p ht (s' := s.goto t .gone) rfl
      exact ⟨rfl, fun _ => by simp [scansFrom] at this; simp [takesBelow, handedOut, this]⟩
    · cases hs
  | step t =>
    simp only [step] at hs
    split at hs
    · -- adding
      rename_i r q ht
      split at hs
      · simp only [Option.some.injEq, Prod.mk.injEq] at hs
        obtain ⟨rfl, rfl⟩ := hs
        have hw := waitingAbove_update p q s (l := s.runs q ++ [r])
          (s' := { s with runs := Function.update s.runs q (s.runs q ++ [r]) }.goto t .signalling) rfl
        have hp := past_goto p ht (s' := { s with runs := Function.update s.runs q (s.runs q ++ [r]) }.goto t .signalling) rfl
        refine ⟨?_, fun _ => ?_⟩
        · by_cases hq : q < p <;> simp [takesAbove, handedOut, arrivedAbove, hq] at hw ⊢ <;> omega
        · simp [scansFrom] at hp; simp [takesBelow, handedOut, hp]
      · cases hs
    · -- requeuing
      rename_i r q ht
      split at hs
      · simp only [Option.some.injEq, Prod.mk.injEq] at hs
        obtain ⟨rfl, rfl⟩ := hs
        have hw := waitingAbove_update p q s (l := s.runs q ++ [r])
          (s' := { s with runs := Function.update s.runs q (s.runs q ++ [r]) }.goto t .signalling) rfl
        have hp := past_goto p ht (s' := { s with runs := Function.update s.runs q (s.runs q ++ [r]) }.goto t .signalling) rfl
        refine ⟨?_, fun _ => ?_⟩
        · by_cases hq : q < p <;> simp [takesAbove, handedOut, arrivedAbove, hq] at hw ⊢ <;> omega
        · simp [scansFrom] at hp; simp [takesBelow, handedOut, hp]
      · simp only [Option.some.injEq, Prod.mk.injEq] at hs
        obtain ⟨rfl, rfl⟩ := hs
        have := past_goto p ht (s' := s.goto t .refused) rfl
        exact ⟨rfl, fun _ => by simp [scansFrom] at this; simp [takesBelow, handedOut, this]⟩
    · -- signalling
      rename_i ht
      split at hs
      · simp only [Option.some.injEq, Prod.mk.injEq] at hs
        obtain ⟨rfl, rfl⟩ := hs
        have := past_goto p ht (s' := { s with ready := s.ready + 1 }.goto t .enqueued) rfl
        exact ⟨rfl, fun _ => by simp [scansFrom] at this; simp [takesBelow, handedOut, this]⟩
      · cases hs
    · -- waiting
      rename_i ht
      split at hs
      · simp only [Option.some.injEq, Prod.mk.injEq] at hs
        obtain ⟨rfl, rfl⟩ := hs
        have := past_goto p ht (s' := { s with ready := s.ready - 1 }.goto t (.scanning 0)) rfl
        exact ⟨rfl, fun _ => by simp [scansFrom] at this; simp [takesBelow, handedOut, this]⟩
      · cases hs
    · -- scanning
      rename_i i ht
      split at hs
      · rename_i hi
        split at hs
        · rename_i r rs hr
          simp only [Option.some.injEq, Prod.mk.injEq] at hs
          obtain ⟨rfl, rfl⟩ := hs
          have hw := waitingAbove_update p ⟨i, hi⟩ s (l := rs)
            (s' := { s with runs := Function.update s.runs ⟨i, hi⟩ rs }.goto t (.got r ⟨i, hi⟩)) rfl
          have hp := past_goto p ht
            (s' := { s with runs := Function.update s.runs ⟨i, hi⟩ rs }.goto t (.got r ⟨i, hi⟩)) rfl
          rw [hr] at hw
          refine ⟨?_, fun _ => ?_⟩
          · by_cases hq : (⟨i, hi⟩ : Fin 4) < p <;> simp [takesAbove, handedOut, arrivedAbove, hq] at hw ⊢ <;> omega
          · have hlt : (p < ⟨i, hi⟩) ↔ p.val + 1 ≤ i := by rw [Fin.lt_def]; exact Nat.succ_le_iff.symm
            by_cases hq : p.val + 1 ≤ i
            · simp [scansFrom, hq] at hp; simp [takesBelow, handedOut, hlt.mpr hq, hp]
            · have hq' : ¬ p < ⟨i, hi⟩ := fun h => hq (hlt.mp h)
              simp [scansFrom, hq] at hp; simp [takesBelow, handedOut, hq', hp]
        · rename_i hr
          simp only [Option.some.injEq, Prod.mk.injEq] at hs
          obtain ⟨rfl, rfl⟩ := hs
          have hp := past_goto p ht (s' := s.goto t (.scanning (i + 1))) rfl
          refine ⟨rfl, fun hne => ?_⟩
          have hip : i ≠ p.val := by rintro rfl; exact hne hr
          have : scansFrom (p.val + 1) (.scanning (i + 1) : Thread ρ) = scansFrom (p.val + 1) (.scanning i : Thread ρ) := by
            simp only [scansFrom, decide_eq_decide]; omega
          rw [this] at hp
          simp [takesBelow, handedOut]; omega
      · rename_i hi
        simp only [Option.some.injEq, Prod.mk.injEq] at hs
        obtain ⟨rfl, rfl⟩ := hs
        have hp := past_goto p ht (s' := s.goto t .panicked) rfl
        exact ⟨rfl, fun _ => by simp [scansFrom] at hp; simp [takesBelow, handedOut]; omega⟩
    · cases hs

/-! ## C143 -/

theorem takesAbove_append (p : Fin 4) (a b : List (Event ρ)) : takesAbove p (a ++ b) = takesAbove p a ++ takesAbove p b := by
  simp [takesAbove, handedOut_append]

theorem takesBelow_append (p : Fin 4) (a b : List (Event ρ)) : takesBelow p (a ++ b) = takesBelow p a ++ takesBelow p b := by
  simp [takesBelow, handedOut_append]

theorem arrivedAbove_append (p : Fin 4) (a b : List (Event ρ)) :
    arrivedAbove p (a ++ b) = arrivedAbove p a ++ arrivedAbove p b := List.filterMap_append

theorem Leads.higher {cap : Nat} {s s' : State ρ} {evs : List (Event ρ)} (hl : Leads cap s evs s') (p : Fin 4) :
    waitingAbove p s' + (takesAbove p evs).length = waitingAbove p s + (arrivedAbove p evs).length := by
  induction hl with
  | nil => rfl
  | step _ hs ih =>
    have := (step_counts hs p).1
    rw [takesAbove_append, arrivedAbove_append, List.length_append, List.length_append]
    omega

/-- While a run is still in channel `p`, runs of lower priority are handed out only by calls of `GetRun` that had
found the channel empty before. -/
theorem Leads.lower {cap : Nat} {pre evs : List (Event ρ)} {s s' : State ρ} (h : Reach cap pre s) (hl : Leads cap s evs s')
    (p : Fin 4) (hw : (takes p evs).length < (s.runs p).length) :
    pastChannel p s' + (takesBelow p evs).length ≤ pastChannel p s := by
  induction hl with
  | nil => exact Nat.le_refl _
  | @step evs s1 a s2 e hl hs ih =>
    rw [takes_append, List.length_append] at hw
    have hne : s1.runs p ≠ [] := by
      intro hn
      have := congrArg List.length (hl.fifo h p)
      rw [hn] at this
      simp only [List.length_append, List.length_nil] at this
      omega
    have h1 := (step_counts hs p).2 hne
    have h2 := ih (by omega)
    rw [takesBelow_append, List.length_append]
    omega

theorem pushed_runs {cap : Nat} {s s' : State ρ} {a : Act ρ} {t : Nat} {r : ρ} {p : Fin 4}
    (hs : step cap s a = some (s', .pushed t r p)) : s'.runs p = s.runs p ++ [r] := by
  simp only [step] at hs
  repeat' split at hs
  all_goals first
    | (cases hs; done)
    | (simp only [Option.some.injEq, Prod.mk.injEq, Event.pushed.injEq] at hs
       obtain ⟨rfl, rfl, rfl, rfl⟩ := hs
       simp [State.goto])

/-- C143: a run that has just been put into channel `p` (it is the last one there) is handed out before or as soon as
the number of runs handed out exceeds: the runs that were in that channel before it, plus the runs of higher priority
that were there or came, plus the calls of `GetRun` that were under way and past the channel. -/
theorem C143_bounded_wait {cap : Nat} {pre evs : List (Event ρ)} {s s' : State ρ} {t : Nat} {r : ρ} {p : Fin 4}
    (h : Reach cap (pre ++ [.pushed t r p]) s) (hl : Leads cap s evs s')
    (hmany : ((s.runs p).length - 1) + waitingAbove p s + (arrivedAbove p evs).length + pastChannel p s <
      (handedOut evs).length) :
    (r, p) ∈ handedOut evs := by
  have hfifo := C22_fifo h p
  rw [pushes_append] at hfifo
  have hp1 : pushes p [Event.pushed t r p] = [r] := by simp [pushes]
  rw [hp1] at hfifo
  -- the run is the last in its channel
  obtain ⟨q, hq⟩ : ∃ q, s.runs p = q ++ [r] := by
    rcases List.eq_nil_or_concat (s.runs p) with hn | ⟨q, x, hx⟩
    · exfalso
      generalize hE : pre ++ [Event.pushed t r p] = E at h
      cases h with
      | init => simp at hE
      | @step evs0 s0 a s1 e h0 hs =>
        obtain ⟨-, he⟩ := List.append_inj' hE rfl
        cases he
        rw [pushed_runs hs] at hn
        simp at hn
    · rw [List.concat_eq_append] at hx
      rw [hx, ← List.append_assoc] at hfifo
      have := List.append_inj_right' hfifo rfl
      exact ⟨q, by rw [hx, List.cons.inj this |>.1]⟩
  have hlen : (takes p evs).length ≥ (s.runs p).length := by
    by_contra hn
    have h1 := hl.higher p
    have h2 := hl.lower h p (by omega)
    have h3 := handedOut_length p evs
    omega
  have hf := hl.fifo h p
  have hpre : s.runs p <+: takes p evs := by
    have := congrArg (List.take (s.runs p).length) hf
    rw [List.take_left, List.take_append_of_le_length hlen] at this
    rw [this]; exact List.take_prefix _ _
  have hr : r ∈ takes p evs := hpre.subset (by rw [hq]; simp)
  simp only [takes, List.mem_filterMap] at hr
  obtain ⟨e, he, hm⟩ := hr
  cases e with
  | took u r' q' =>
    by_cases hqq : q' = p
    · simp only [hqq, if_true, Option.some.injEq] at hm
      subst hm; subst hqq
      exact List.mem_filterMap.mpr ⟨_, he, rfl⟩
    · simp [hqq] at hm
  | _ => simp at hm

/-- C143: with no `GetRun` under way past the channel, no run of lower priority is handed out while the run waits. -/
theorem C143_no_inversion {cap : Nat} {pre evs : List (Event ρ)} {s s' : State ρ} {t : Nat} {r : ρ} {p : Fin 4}
    (h : Reach cap (pre ++ [.pushed t r p]) s) (hl : Leads cap s evs s') (hq : pastChannel p s = 0)
    (hw : (takes p evs).length < (s.runs p).length) : ∀ x ∈ handedOut evs, x.2 ≤ p := by
  have := hl.lower h p hw
  have h0 : takesBelow p evs = [] := List.length_eq_zero_iff.mp (by omega)
  intro x hx
  by_contra hn
  have : x ∈ takesBelow p evs := List.mem_filter.mpr ⟨hx, by simpa using hn⟩
  rw [h0] at this
  cases this

/-! ### A case where the bound is attained -/

/-- A schedule, from a given state. -/
def execFrom (cap : Nat) (s : State ρ) : List (Act ρ) → Option (List (Event ρ) × State ρ)
  | [] => some ([], s)
  | a :: acts => (step cap s a).bind fun r => (execFrom cap r.1 acts).map fun q => (r.2 :: q.1, q.2)

theorem Leads.trans {cap : Nat} {s s1 s2 : State ρ} {a b : List (Event ρ)} (h1 : Leads cap s a s1) (h2 : Leads cap s1 b s2) :
    Leads cap s (a ++ b) s2 := by
  induction h2 with
  | nil => simpa using h1
  | step _ hs ih => rw [← List.append_assoc]; exact .step ih hs

theorem leads_of_execFrom {cap : Nat} (acts : List (Act ρ)) : ∀ {s s' : State ρ} {evs : List (Event ρ)},
    execFrom cap s acts = some (evs, s') → Leads cap s evs s' := by
  induction acts with
  | nil => intro s s' evs h; cases h; exact .nil
  | cons a acts ih =>
    intro s s' evs h
    simp only [execFrom, Option.bind_eq_some_iff, Option.map_eq_some_iff] at h
    obtain ⟨r, hr, q, hq, he⟩ := h
    cases he
    exact (Leads.step (evs := []) .nil hr).trans (ih hq)

/-- Run 30 (priority 3) is there, and a `GetRun` is past channel 1; run 10 and then run 11 come with priority 1. -/
def before : List (Act Nat) :=
  [.call (.addRun 30 3), .step 0, .step 0, .call .getRun, .step 1, .step 1, .step 1, .call (.addRun 10 1), .step 2, .step 2,
   .call (.addRun 11 1), .step 3]

/-- Run 0 comes with priority 0; the old `GetRun` hands out 30, the next ones 0, 10 and 11. -/
def after : List (Act Nat) :=
  [.step 3, .call (.addRun 0 0), .step 4, .step 4, .step 1, .step 1, .call .getRun, .step 5, .step 5,
   .call .getRun, .step 6, .step 6, .step 6, .call .getRun, .step 7, .step 7, .step 7]

/-- The bound is 1 + 0 + 1 + 1, and run 11 is the fourth. -/
example : ∃ pre s evs s', Reach 5 (pre ++ [.pushed 3 11 1]) s ∧ Leads 5 s evs s' ∧
    (s.runs 1).length - 1 = 1 ∧ waitingAbove 1 s = 0 ∧ (arrivedAbove 1 evs).length = 1 ∧ pastChannel 1 s = 1 ∧
    handedOut evs = [(30, 3), (0, 0), (10, 1), (11, 1)] := by
  obtain ⟨p, hp⟩ : ∃ p, exec 5 before = some p := ⟨_, rfl⟩
  obtain ⟨q, hq⟩ : ∃ q, execFrom 5 p.2 after = some q := by cases hp; exact ⟨_, rfl⟩
  refine ⟨p.1.dropLast, p.2, q.1, q.2, ?_, leads_of_execFrom after hq, ?_⟩
  · have : p.1.dropLast ++ [.pushed 3 11 1] = p.1 := by cases hp; rfl
    rw [this]; exact reach_of_exec hp
  · cases hp; cases hq; decide +kernel

/-- The hypotheses of the other theorem, with runs handed out: the first two runs of a quiet queue. -/
example : ∃ pre s evs s', Reach (ρ := Nat) 5 (pre ++ [.pushed 1 11 1]) s ∧ Leads 5 s evs s' ∧ pastChannel 1 s = 0 ∧
    (takes 1 evs).length < (s.runs 1).length ∧ handedOut evs = [(10, 1)] := by
  obtain ⟨p, hp⟩ : ∃ p, exec (ρ := Nat) 5 [.call (.addRun 10 1), .call (.addRun 11 1), .step 0, .step 0, .step 1] = some p :=
    ⟨_, rfl⟩
  obtain ⟨q, hq⟩ : ∃ q, execFrom 5 p.2 [.call .getRun, .step 2, .step 2, .step 2] = some q := by cases hp; exact ⟨_, rfl⟩
  refine ⟨p.1.dropLast, p.2, q.1, q.2, ?_, leads_of_execFrom _ hq, ?_⟩
  · have : p.1.dropLast ++ [.pushed 1 11 1] = p.1 := by cases hp; rfl
    rw [this]; exact reach_of_exec hp
  · cases hp; cases hq; decide +kernel

end Quark.Queue
