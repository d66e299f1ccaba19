import Verif.Queue.Model
import Mathlib.Data.Fin.VecNotation
import Mathlib.Tactic.FinCases
import Mathlib.Tactic.SplitIfs
import Mathlib.Algebra.BigOperators.Fin

/-!
# C20-C23: the priority queue under every interleaving
-/

namespace Quark.Queue

variable {ρ : Type}

/-! ## Specification -/

/-- The runs put into channel `p`, in order. -/
def pushes (p : Fin 4) (evs : List (Event ρ)) : List ρ :=
  evs.filterMap fun e => match e with
    | .pushed _ r q => if q = p then some r else none
    | _ => none

/-- The runs handed out from channel `p`, in order. -/
def takes (p : Fin 4) (evs : List (Event ρ)) : List ρ :=
  evs.filterMap fun e => match e with
    | .took _ r q => if q = p then some r else none
    | _ => none

/-- The number of runs in the four channels. -/
def State.queued (s : State ρ) : Nat :=
  (s.runs 0).length + (s.runs 1).length + (s.runs 2).length + (s.runs 3).length

/-! ## Invariant -/

/-- Runs in channels from `p` on. -/
def above (f : Fin 4 → List ρ) (p : Nat) : Nat :=
  (if p ≤ 0 then (f 0).length else 0) + (if p ≤ 1 then (f 1).length else 0) +
  (if p ≤ 2 then (f 2).length else 0) + (if p ≤ 3 then (f 3).length else 0)

def isSignalling : Thread ρ → Bool
  | .signalling => true
  | _ => false

def scansFrom (p : Nat) : Thread ρ → Bool
  | .scanning i => p ≤ i
  | _ => false

structure Inv (cap : Nat) (evs : List (Event ρ)) (s : State ρ) : Prop where
  bound : ∀ p, (s.runs p).length ≤ cap
  total : above s.runs 0 =
    s.ready + s.threads.countP isSignalling + s.threads.countP (scansFrom 0)
  scan : ∀ p ≤ 4, s.threads.countP (scansFrom p) ≤ above s.runs p
  fifo : ∀ p, pushes p evs = takes p evs ++ s.runs p
  calm : Thread.panicked ∉ s.threads

theorem countP_goto {f : Thread ρ → Bool} {l : List (Thread ρ)} {t : Nat} {x y : Thread ρ}
    (h : l[t]? = some y) :
    (l.set t x).countP f + (if f y then 1 else 0) = l.countP f + (if f x then 1 else 0) := by
  obtain ⟨hlt, rfl⟩ := List.getElem?_eq_some_iff.mp h
  rw [List.countP_set hlt]
  have : f l[t] = true → 0 < l.countP f := fun hf =>
    List.countP_pos_iff.mpr ⟨_, List.getElem_mem hlt, hf⟩
  by_cases h1 : f l[t] = true
  · have := this h1
    simp only [h1, if_true]; omega
  · simp only [h1, if_false, Bool.false_eq_true]; omega

theorem mem_set_of {l : List (Thread ρ)} {t : Nat} {x y : Thread ρ} (h : y ∈ l.set t x) :
    y ∈ l ∨ y = x := List.mem_or_eq_of_mem_set h

theorem above_update (f : Fin 4 → List ρ) (i : Fin 4) (l : List ρ) (p : Nat) :
    above (Function.update f i l) p + (if p ≤ i.val then (f i).length else 0) =
      above f p + (if p ≤ i.val then l.length else 0) := by
  unfold above
  match i with
  | 0 => simp [Function.update]; split_ifs <;> omega
  | 1 => simp [Function.update]; split_ifs <;> omega
  | 2 => simp [Function.update]; split_ifs <;> omega
  | 3 => simp [Function.update]; split_ifs <;> omega

theorem above_step (f : Fin 4 → List ρ) (i : Fin 4) (h : f i = []) :
    above f i.val = above f (i.val + 1) := by
  unfold above
  match i, h with
  | 0, h => simp [h]
  | 1, h => simp [h]
  | 2, h => simp [h]
  | 3, h => simp [h]

theorem pushes_append (p : Fin 4) (a b : List (Event ρ)) :
    pushes p (a ++ b) = pushes p a ++ pushes p b := List.filterMap_append

theorem takes_append (p : Fin 4) (a b : List (Event ρ)) :
    takes p (a ++ b) = takes p a ++ takes p b := List.filterMap_append

theorem scansFrom_succ_le (l : List (Thread ρ)) (p : Nat) :
    l.countP (scansFrom (p + 1)) ≤ l.countP (scansFrom p) :=
  List.countP_mono_left (fun x _ h => by
    cases x <;> simp [scansFrom] at h ⊢
    omega)

/-- The invariant for a step that leaves the channels of runs alone. -/
theorem Inv.quiet {cap : Nat} {evs : List (Event ρ)} {s : State ρ} (h : Inv cap evs s)
    {t : Nat} {x y : Thread ρ} (ht : s.threads[t]? = some y) {e : Event ρ} {n : Nat}
    (he : ∀ p, pushes p [e] = [] ∧ takes p [e] = [])
    (htot : n + (if isSignalling x then 1 else 0) + (if scansFrom 0 x then 1 else 0)
      = s.ready + (if isSignalling y then 1 else 0) + (if scansFrom 0 y then 1 else 0))
    (hscan : ∀ p ≤ 4, scansFrom p x = true →
      s.threads.countP (scansFrom p) + 1 ≤ above s.runs p + (if scansFrom p y then 1 else 0))
    (hx : x ≠ .panicked) :
    Inv cap (evs ++ [e]) ({ s with ready := n }.goto t x) := by
  have c := fun f => countP_goto (f := f) (x := x) ht
  constructor
  · exact h.bound
  · have h1 := h.total
    have h2 := c isSignalling
    have h3 := c (scansFrom 0)
    simp only [State.goto]
    omega
  · intro p hp
    have h1 := h.scan p hp
    have h2 := c (scansFrom p)
    simp only [State.goto]
    by_cases hf : scansFrom p x = true
    · have h3 := hscan p hp hf
      rw [if_pos hf] at h2
      omega
    · rw [if_neg hf] at h2
      omega
  · intro p
    rw [pushes_append, takes_append, (he p).1, (he p).2, List.append_nil, List.append_nil, h.fifo p]
    rfl
  · intro hm
    rcases mem_set_of hm with hm | hm
    · exact h.calm hm
    · exact hx hm.symm

/-- The invariant for a send on a channel of runs. -/
theorem Inv.push {cap : Nat} {evs : List (Event ρ)} {s : State ρ} (h : Inv cap evs s)
    {t : Nat} {y : Thread ρ} (ht : s.threads[t]? = some y)
    (hy : isSignalling y = false ∧ ∀ p, scansFrom p y = false) {r : ρ} {q : Fin 4}
    (hq : (s.runs q).length < cap) :
    Inv cap (evs ++ [.pushed t r q])
      ({ s with runs := Function.update s.runs q (s.runs q ++ [r]) }.goto t .signalling) := by
  have c := fun f => countP_goto (f := f) (x := .signalling) ht
  constructor
  · intro p
    simp only [State.goto]
    by_cases hpq : p = q
    · subst hpq; simp; omega
    · rw [Function.update_of_ne hpq]; exact h.bound p
  · have h1 := h.total
    have h2 := c isSignalling
    have h3 := c (scansFrom 0)
    have h4 := above_update s.runs q (s.runs q ++ [r]) 0
    rw [hy.1, show isSignalling (Thread.signalling : Thread ρ) = true from rfl] at h2
    rw [hy.2, show scansFrom 0 (Thread.signalling : Thread ρ) = false from rfl] at h3
    simp at h2 h3 h4
    simp only [State.goto]
    omega
  · intro p hp
    have h1 := h.scan p hp
    have h3 := c (scansFrom p)
    have h4 := above_update s.runs q (s.runs q ++ [r]) p
    rw [hy.2, show scansFrom p (Thread.signalling : Thread ρ) = false from rfl] at h3
    simp at h3
    simp only [State.goto]
    rw [h3]
    split_ifs at h4 <;> simp at h4 <;> omega
  · intro p
    rw [pushes_append, takes_append, h.fifo p]
    simp only [State.goto, pushes, takes, List.filterMap_cons, List.filterMap_nil]
    by_cases hpq : q = p
    · subst hpq; simp
    · rw [Function.update_of_ne (Ne.symm hpq)]; simp [hpq]
  · intro hm
    rcases mem_set_of hm with hm | hm
    · exact h.calm hm
    · cases hm

/-- The invariant for a receive from a channel of runs. -/
theorem Inv.take {cap : Nat} {evs : List (Event ρ)} {s : State ρ} (h : Inv cap evs s)
    {t : Nat} {i : Fin 4} (ht : s.threads[t]? = some (.scanning i.val)) {r : ρ} {rs : List ρ}
    (hq : s.runs i = r :: rs) :
    Inv cap (evs ++ [.took t r i])
      ({ s with runs := Function.update s.runs i rs }.goto t (.got r i)) := by
  have c := fun f => countP_goto (f := f) (x := .got r i) ht
  constructor
  · intro p
    simp only [State.goto]
    by_cases hpq : p = i
    · subst hpq
      have := h.bound p
      rw [hq] at this
      simp at this ⊢
      omega
    · rw [Function.update_of_ne hpq]; exact h.bound p
  · have h1 := h.total
    have h2 := c isSignalling
    have h3 := c (scansFrom 0)
    have h4 := above_update s.runs i rs 0
    simp [hq, isSignalling, scansFrom] at h2 h3 h4
    simp only [State.goto]
    omega
  · intro p hp
    have h1 := h.scan p hp
    have h3 := c (scansFrom p)
    have h4 := above_update s.runs i rs p
    simp [hq, scansFrom] at h3 h4
    simp only [State.goto]
    split_ifs at h3 h4 <;> omega
  · intro p
    rw [pushes_append, takes_append, h.fifo p]
    simp only [State.goto, pushes, takes, List.filterMap_cons, List.filterMap_nil]
    by_cases hpq : i = p
    · subst hpq; simp [hq]
    · rw [Function.update_of_ne (Ne.symm hpq)]; simp [hpq]
  · intro hm
    rcases mem_set_of hm with hm | hm
    · exact h.calm hm
    · cases hm

theorem Inv.init (cap : Nat) : Inv cap [] ({} : State ρ) :=
  ⟨fun _ => Nat.zero_le _, rfl, fun _ _ => by simp, fun _ => rfl, by simp⟩

theorem Inv.step {cap : Nat} {evs : List (Event ρ)} {s s' : State ρ} {a : Act ρ} {e : Event ρ}
    (h : Inv cap evs s) (hs : Queue.step cap s a = some (s', e)) : Inv cap (evs ++ [e]) s' := by
  cases a with
  | call c =>
    simp only [Queue.step, Option.some.injEq, Prod.mk.injEq] at hs
    obtain ⟨rfl, rfl⟩ := hs
    have c1 : isSignalling c.start = false := by cases c <;> rfl
    have c2 : ∀ p, scansFrom p c.start = false := by intro p; cases c <;> rfl
    constructor
    · exact h.bound
    · have := h.total
      simp only [List.countP_append, List.countP_singleton, c1, c2]
      simpa using this
    · intro p hp
      have := h.scan p hp
      simp only [List.countP_append, List.countP_singleton, c2]
      simpa using this
    · intro p
      rw [pushes_append, takes_append, h.fifo p]
      simp [pushes, takes]
    · intro hm
      rcases List.mem_append.mp hm with hm | hm
      · exact h.calm hm
      · cases c <;> simp [Call.start] at hm
  | hangup t =>
    simp only [Queue.step] at hs
    split at hs
    · rename_i ht
      cases hs
      exact h.quiet ht (x := .gone) (n := s.ready) (fun p => ⟨rfl, rfl⟩) rfl
        (fun p _ hf => by simp [scansFrom] at hf) (by simp)
    · cases hs
  | step t =>
    simp only [Queue.step] at hs
    split at hs
    · rename_i r p ht
      split_ifs at hs with hc
      cases hs
      exact h.push ht ⟨rfl, fun _ => rfl⟩ hc
    · rename_i r p ht
      split_ifs at hs with hc
      · cases hs
        exact h.push ht ⟨rfl, fun _ => rfl⟩ hc
      · cases hs
        exact h.quiet ht (x := .refused) (n := s.ready) (fun p => ⟨rfl, rfl⟩) rfl
          (fun p _ hf => by simp [scansFrom] at hf) (by simp)
    · rename_i ht
      split_ifs at hs with hc
      cases hs
      exact h.quiet ht (x := .enqueued) (n := s.ready + 1) (fun p => ⟨rfl, rfl⟩) rfl
        (fun p _ hf => by simp [scansFrom] at hf) (by simp)
    · rename_i ht
      split_ifs at hs with hc
      cases hs
      refine h.quiet ht (x := .scanning 0) (n := s.ready - 1) (fun p => ⟨rfl, rfl⟩) ?_ ?_ (by simp)
      · simp [isSignalling, scansFrom]; omega
      · intro p hp hf
        have hp0 : p = 0 := by simpa [scansFrom] using hf
        subst hp0
        have := h.total
        simp [scansFrom] at this ⊢
        omega
    · rename_i i ht
      split_ifs at hs with hi
      · split at hs
        · rename_i r rs hr
          cases hs
          exact h.take (i := ⟨i, hi⟩) ht hr
        · rename_i hr
          cases hs
          refine h.quiet ht (x := .scanning (i + 1)) (n := s.ready) (fun p => ⟨rfl, rfl⟩) ?_ ?_
            (by simp)
          · simp [isSignalling, scansFrom]
          · intro p hp hf
            have hp1 : p ≤ i + 1 := by simpa [scansFrom] using hf
            by_cases hpi : p ≤ i
            · have := h.scan p hp
              simp [scansFrom, hpi] at this ⊢
              omega
            · have hp2 : p = i + 1 := by omega
              subst hp2
              have h1 := h.scan i (by omega)
              have h2 := above_step s.runs ⟨i, hi⟩ hr
              have h3 : s.threads.countP (scansFrom (i + 1)) + 1 ≤ s.threads.countP (scansFrom i) := by
                have a1 := countP_goto (f := scansFrom i) (x := Thread.waiting) ht
                have a2 := countP_goto (f := scansFrom (i + 1)) (x := Thread.waiting) ht
                have a3 := scansFrom_succ_le (s.threads.set t .waiting) i
                have a4 : ¬ (i + 1 ≤ i) := by omega
                simp [scansFrom, a4] at a1 a2
                omega
              simp only at h2
              omega
      · exfalso
        have h1 := h.scan 4 (le_refl _)
        have h2 : above s.runs 4 = 0 := by simp [above]
        have h3 : 0 < s.threads.countP (scansFrom 4) :=
          List.countP_pos_iff.mpr ⟨_, List.mem_of_getElem? ht, by
            simp [scansFrom]; omega⟩
        omega
    · cases hs

theorem Reach.inv {cap : Nat} {evs : List (Event ρ)} {s : State ρ} (h : Reach cap evs s) :
    Inv cap evs s := by
  induction h with
  | init => exact Inv.init cap
  | step _ hs ih => exact ih.step hs

/-! ## C20 -/

/-- **C20** No goroutine ever reaches the panic: whatever calls are made concurrently and however their
channel operations interleave, a `GetRun` past the token channel finds a run. -/
theorem C20_no_panic {cap : Nat} {evs : List (Event ρ)} {s : State ρ} (h : Reach cap evs s) :
    Thread.panicked ∉ s.threads ∧ ∀ t, Event.panicked t ∉ evs := by
  refine ⟨h.inv.calm, ?_⟩
  intro t
  induction h with
  | init => simp
  | @step evs s a s' e h' hs ih =>
    intro hm
    rcases List.mem_append.mp hm with hm | hm
    · exact ih hm
    · simp only [List.mem_singleton] at hm
      subst hm
      have hc := (h'.inv.step hs).calm
      cases a with
      | call c => simp [Queue.step] at hs
      | hangup t' =>
        simp only [Queue.step] at hs
        split at hs <;> simp at hs
      | step t' =>
        simp only [Queue.step] at hs
        split at hs
        · split_ifs at hs; simp at hs
        · split_ifs at hs <;> simp at hs
        · split_ifs at hs; simp at hs
        · split_ifs at hs; simp at hs
        · rename_i i ht
          split_ifs at hs with hi
          · split at hs <;> simp at hs
          · simp only [Option.some.injEq, Prod.mk.injEq] at hs
            rw [← hs.1] at hc
            apply hc
            simp only [State.goto]
            obtain ⟨hlt, -⟩ := List.getElem?_eq_some_iff.mp ht
            exact List.mem_set hlt _
        · cases hs

/-! ## C21 -/

/-- **C21** A goroutine that placed a run never waits to signal it, and `enqueue`, which is what
`Requeue` calls, never waits at all. -/
theorem C21_never_blocks {cap : Nat} {evs : List (Event ρ)} {s : State ρ} (h : Reach cap evs s)
    (t : Nat) :
    (s.threads[t]? = some .signalling →
      ∃ s', step cap s (.step t) = some (s', .signalled t) ∧ s'.threads[t]? = some .enqueued) ∧
    (∀ r p, s.threads[t]? = some (.requeuing r p) →
      if (s.runs p).length < cap then
        ∃ s', step cap s (.step t) = some (s', .pushed t r p) ∧ s'.threads[t]? = some .signalling
      else ∃ s', step cap s (.step t) = some (s', .refused t) ∧ s'.threads[t]? = some .refused) := by
  constructor
  · intro ht
    have h1 := h.inv.total
    have h2 : 0 < s.threads.countP isSignalling :=
      List.countP_pos_iff.mpr ⟨_, List.mem_of_getElem? ht, rfl⟩
    have hb := h.inv.bound
    have h3 : s.ready < readyCap cap := by
      have b0 := hb 0
      have b1 := hb 1
      have b2 := hb 2
      have b3 := hb 3
      simp only [above, Nat.zero_le, if_true] at h1
      unfold readyCap
      omega
    obtain ⟨hlt, -⟩ := List.getElem?_eq_some_iff.mp ht
    simp only [Queue.step, ht, if_pos h3]
    exact ⟨_, rfl, by simp [State.goto, hlt]⟩
  · intro r p ht
    obtain ⟨hlt, -⟩ := List.getElem?_eq_some_iff.mp ht
    simp only [Queue.step, ht]
    split_ifs
    · exact ⟨_, rfl, by simp [State.goto, hlt]⟩
    · exact ⟨_, rfl, by simp [State.goto, hlt]⟩

/-- **C21** No wakeup is lost: the queued runs are those with a token waiting, those about to be
signalled and those already promised to a consumer. In particular, when no call is between its two
channel operations, a consumer is admitted exactly if a run is queued. -/
theorem C21_no_lost_wakeup {cap : Nat} {evs : List (Event ρ)} {s : State ρ} (h : Reach cap evs s)
    (hidle : ∀ x ∈ s.threads, x ≠ .signalling ∧ ∀ i, x ≠ .scanning i) :
    s.queued = s.ready ∧
    ∀ t, s.threads[t]? = some .waiting →
      ((∃ s', step cap s (.step t) = some (s', .admitted t)) ↔ ∃ p, s.runs p ≠ []) := by
  have h1 := h.inv.total
  have h2 : s.threads.countP isSignalling = 0 := List.countP_eq_zero.mpr (fun x hx => by
    have := (hidle x hx).1
    cases x <;> simp [isSignalling] at this ⊢)
  have h3 : s.threads.countP (scansFrom 0) = 0 := List.countP_eq_zero.mpr (fun x hx => by
    have := (hidle x hx).2
    cases x <;> simp [scansFrom] at this ⊢)
  have hq : s.queued = s.ready := by
    simp only [above, Nat.zero_le, if_true] at h1
    unfold State.queued
    omega
  refine ⟨hq, ?_⟩
  intro t ht
  have hpos : (∃ p, s.runs p ≠ []) ↔ 0 < s.ready := by
    rw [← hq]
    unfold State.queued
    constructor
    · rintro ⟨p, hp⟩
      have := List.length_pos_iff.mpr hp
      match p with
      | 0 => omega
      | 1 => omega
      | 2 => omega
      | 3 => omega
    · intro hlt
      by_contra hno
      have hall : ∀ p, s.runs p = [] := fun p => by
        by_contra hp; exact hno ⟨p, hp⟩
      simp [hall] at hlt
  rw [hpos]
  simp only [Queue.step, ht]
  split_ifs with hc
  · simp [hc]
  · simp [hc]

/-! ## C22 -/

/-- **C22** The runs enqueued at a priority are, in this order, the runs handed out from it followed by
the runs still there. -/
theorem C22_fifo {cap : Nat} {evs : List (Event ρ)} {s : State ρ} (h : Reach cap evs s)
    (p : Fin 4) : pushes p evs = takes p evs ++ s.runs p := h.inv.fifo p

/-- The goroutine an event belongs to. -/
def Event.thread : Event ρ → Nat
  | .called t _ | .pushed t _ _ | .refused t | .signalled t | .admitted t | .passed t _
  | .took t _ _ | .gone t | .panicked t => t

/-- What goroutine `t` did, in order. -/
def doneBy (t : Nat) (evs : List (Event ρ)) : List (Event ρ) :=
  evs.filter fun e => e.thread == t

/-- What a goroutine in a given situation has done so far. -/
inductive Story (t : Nat) : Thread ρ → List (Event ρ) → Prop
  | adding (r p) : Story t (.adding r p) [.called t (.addRun r p)]
  | requeuing (r p) : Story t (.requeuing r p) [.called t (.enqueue r p)]
  | signalling (c r p) (h : c = .addRun r p ∨ c = .enqueue r p) :
      Story t .signalling [.called t c, .pushed t r p]
  | enqueued (c r p) (h : c = .addRun r p ∨ c = .enqueue r p) :
      Story t .enqueued [.called t c, .pushed t r p, .signalled t]
  | refused (r p) : Story t .refused [.called t (.enqueue r p), .refused t]
  | waiting : Story t .waiting [.called t .getRun]
  | scanning (i) : Story t (.scanning i)
      ([.called t .getRun, .admitted t] ++ (List.range i).map (.passed t))
  | got (r) (i : Fin 4) : Story t (.got r i)
      ([.called t .getRun, .admitted t] ++ (List.range i).map (.passed t) ++ [.took t r i])
  | gone : Story t .gone [.called t .getRun, .gone t]

theorem doneBy_append (t : Nat) (a b : List (Event ρ)) :
    doneBy t (a ++ b) = doneBy t a ++ doneBy t b := List.filter_append ..

theorem story_step {evs : List (Event ρ)} {l : List (Thread ρ)} {t : Nat} {x : Thread ρ}
    {e : Event ρ} (he : e.thread = t)
    (h1 : ∀ u y, l[u]? = some y → Story u y (doneBy u evs))
    (h2 : ∀ u, l.length ≤ u → doneBy u evs = [])
    (ht : t < l.length) (hx : Story t x (doneBy t evs ++ [e])) :
    (∀ u y, (l.set t x)[u]? = some y → Story u y (doneBy u (evs ++ [e]))) ∧
    (∀ u, (l.set t x).length ≤ u → doneBy u (evs ++ [e]) = []) := by
  have hother : ∀ u, u ≠ t → doneBy u (evs ++ [e]) = doneBy u evs := by
    intro u hu
    rw [doneBy_append]
    have : e.thread ≠ u := fun h => hu (by rw [← h, he])
    simp [doneBy, this]
  have hsame : doneBy t (evs ++ [e]) = doneBy t evs ++ [e] := by
    rw [doneBy_append]
    simp [doneBy, he]
  constructor
  · intro u y hy
    by_cases hu : u = t
    · subst hu
      rw [List.getElem?_set_self ht] at hy
      cases hy
      rw [hsame]
      exact hx
    · rw [List.getElem?_set_ne (Ne.symm hu)] at hy
      rw [hother u hu]
      exact h1 u y hy
  · intro u hu
    rw [List.length_set] at hu
    rw [hother u (by omega)]
    exact h2 u hu

theorem Reach.story {cap : Nat} {evs : List (Event ρ)} {s : State ρ} (h : Reach cap evs s) :
    (∀ t x, s.threads[t]? = some x → Story t x (doneBy t evs)) ∧
    (∀ t, s.threads.length ≤ t → doneBy t evs = []) := by
  induction h with
  | init => exact ⟨fun t x h => by simp at h, fun _ _ => rfl⟩
  | @step evs s a s' e h' hs ih =>
    obtain ⟨ih1, ih2⟩ := ih
    cases a with
    | call c =>
      simp only [Queue.step, Option.some.injEq, Prod.mk.injEq] at hs
      obtain ⟨rfl, rfl⟩ := hs
      have hnew := ih2 s.threads.length (le_refl _)
      constructor
      · intro t x hx
        simp only at hx
        rcases Nat.lt_trichotomy t s.threads.length with ht | ht | ht
        · rw [List.getElem?_append_left ht] at hx
          rw [doneBy_append]
          have : doneBy t [Event.called (ρ := ρ) s.threads.length c] = [] := by
            simp [doneBy, Event.thread]; omega
          rw [this, List.append_nil]
          exact ih1 t x hx
        · subst ht
          simp at hx
          subst hx
          rw [doneBy_append, hnew]
          have : doneBy s.threads.length [Event.called (ρ := ρ) s.threads.length c]
              = [.called s.threads.length c] := by simp [doneBy, Event.thread]
          rw [this, List.nil_append]
          cases c
          · exact .adding _ _
          · exact .requeuing _ _
          · exact .waiting
        · rw [List.getElem?_eq_none (by simp; omega)] at hx
          cases hx
      · intro t ht
        simp at ht
        rw [doneBy_append, ih2 t (by omega)]
        simp [doneBy, Event.thread]; omega
    | hangup t =>
      simp only [Queue.step] at hs
      split at hs
      · rename_i ht
        cases hs
        obtain ⟨hlt, -⟩ := List.getElem?_eq_some_iff.mp ht
        refine story_step rfl ih1 ih2 hlt ?_
        have hst := ih1 t _ ht
        generalize doneBy t evs = d at hst ⊢
        cases hst
        exact .gone
      · cases hs
    | step t =>
      simp only [Queue.step] at hs
      split at hs
      · rename_i r p ht
        obtain ⟨hlt, -⟩ := List.getElem?_eq_some_iff.mp ht
        split_ifs at hs with hc
        cases hs
        refine story_step rfl ih1 ih2 hlt ?_
        have hst := ih1 t _ ht
        generalize doneBy t evs = d at hst ⊢
        cases hst
        exact .signalling _ _ _ (.inl rfl)
      · rename_i r p ht
        obtain ⟨hlt, -⟩ := List.getElem?_eq_some_iff.mp ht
        have hst := ih1 t _ ht
        split_ifs at hs with hc
        · cases hs
          refine story_step rfl ih1 ih2 hlt ?_
          generalize doneBy t evs = d at hst ⊢
          cases hst
          exact .signalling _ _ _ (.inr rfl)
        · cases hs
          refine story_step rfl ih1 ih2 hlt ?_
          generalize doneBy t evs = d at hst ⊢
          cases hst
          exact .refused _ _
      · rename_i ht
        obtain ⟨hlt, -⟩ := List.getElem?_eq_some_iff.mp ht
        have hst := ih1 t _ ht
        split_ifs at hs with hc
        cases hs
        refine story_step rfl ih1 ih2 hlt ?_
        generalize doneBy t evs = d at hst ⊢
        cases hst with
        | signalling c r p h => exact .enqueued _ _ _ h
      · rename_i ht
        obtain ⟨hlt, -⟩ := List.getElem?_eq_some_iff.mp ht
        have hst := ih1 t _ ht
        split_ifs at hs with hc
        cases hs
        refine story_step rfl ih1 ih2 hlt ?_
        generalize doneBy t evs = d at hst ⊢
        cases hst
        exact .scanning 0
      · rename_i i ht
        obtain ⟨hlt, -⟩ := List.getElem?_eq_some_iff.mp ht
        have hst := ih1 t _ ht
        have hinv := h'.inv.step (a := .step t) (s' := s') (e := e) (by
          simp only [Queue.step, ht]; exact hs)
        split_ifs at hs with hi
        · split at hs
          · cases hs
            refine story_step rfl ih1 ih2 hlt ?_
            generalize doneBy t evs = d at hst ⊢
            cases hst
            exact .got _ ⟨i, hi⟩
          · cases hs
            refine story_step rfl ih1 ih2 hlt ?_
            generalize doneBy t evs = d at hst ⊢
            cases hst
            have := Story.scanning (ρ := ρ) (t := t) (i + 1)
            rwa [List.range_succ, List.map_append, ← List.append_assoc] at this
        · cases hs
          exfalso
          exact hinv.calm (by simp only [State.goto]; exact List.mem_set hlt _)
      · cases hs

theorem mem_doneBy {t : Nat} {e : Event ρ} {evs : List (Event ρ)} :
    e ∈ doneBy t evs ↔ e ∈ evs ∧ e.thread = t := by
  simp [doneBy]

/-- The runs goroutine `t` put into channels, with the channels. -/
def placedBy (t : Nat) (evs : List (Event ρ)) : List (ρ × Fin 4) :=
  (doneBy t evs).filterMap fun e => match e with
    | .pushed _ r p => some (r, p)
    | _ => none

/-- **C22** `GetRun` returned a run exactly if it took it from a channel; a call puts a run into a
channel exactly when it returns (or is about to signal) successfully, namely the run and the channel it
was called with, and only once. -/
theorem C22_calls {cap : Nat} {evs : List (Event ρ)} {s : State ρ} (h : Reach cap evs s) (t : Nat) :
    (∀ r i, s.threads[t]? = some (.got r i) ↔ .took t r i ∈ evs) ∧
    (∀ r p, .called t (.addRun r p) ∈ evs ∨ .called t (.enqueue r p) ∈ evs →
      (s.threads[t]? = some .signalling ∨ s.threads[t]? = some .enqueued →
        placedBy t evs = [(r, p)]) ∧
      (s.threads[t]? ≠ some .signalling ∧ s.threads[t]? ≠ some .enqueued →
        placedBy t evs = [])) ∧
    (∀ r p, .pushed t r p ∈ evs →
      .called t (.addRun r p) ∈ evs ∨ .called t (.enqueue r p) ∈ evs) := by
  obtain ⟨h1, h2⟩ := h.story
  have key : ∀ e : Event ρ, e.thread = t → (e ∈ evs ↔ e ∈ doneBy t evs) := fun e he => by
    rw [mem_doneBy]; simp [he]
  have hlive : ∀ e : Event ρ, e ∈ doneBy t evs → ∃ x, s.threads[t]? = some x := by
    intro e he
    by_cases hlt : t < s.threads.length
    · exact ⟨_, List.getElem?_eq_getElem hlt⟩
    · rw [h2 t (by omega)] at he
      cases he
  refine ⟨?_, ?_, ?_⟩
  · intro r i
    rw [key _ rfl]
    constructor
    · intro ht
      have hst := h1 t _ ht
      generalize doneBy t evs = d at hst ⊢
      cases hst
      simp
    · intro he
      obtain ⟨x, hx⟩ := hlive _ he
      have hst := h1 t _ hx
      rw [hx]
      generalize doneBy t evs = d at hst he
      cases hst <;> simp at he
      obtain ⟨rfl, rfl⟩ := he
      rfl
  · intro r p he
    rw [key _ rfl, key _ rfl] at he
    obtain ⟨x, hx⟩ : ∃ x, s.threads[t]? = some x := by
      rcases he with he | he <;> exact hlive _ he
    have hst := h1 t _ hx
    rw [hx]
    unfold placedBy
    generalize doneBy t evs = d at hst he
    cases hst with
    | signalling c r' p' hc =>
      rcases hc with rfl | rfl <;> simp at he ⊢ <;> simp [he]
    | enqueued c r' p' hc =>
      rcases hc with rfl | rfl <;> simp at he ⊢ <;> simp [he]
    | _ => simp at he ⊢
  · intro r p he
    rw [key _ rfl] at he
    rw [key _ rfl, key _ rfl]
    obtain ⟨x, hx⟩ := hlive _ he
    have hst := h1 t _ hx
    generalize doneBy t evs = d at hst he ⊢
    cases hst with
    | signalling c r' p' hc =>
      rcases hc with rfl | rfl <;> simp at he ⊢ <;> simp [he]
    | enqueued c r' p' hc =>
      rcases hc with rfl | rfl <;> simp at he ⊢ <;> simp [he]
    | _ => simp at he

/-! ## C23 -/

/-- A goroutine passes a channel only when the channel is empty. -/
theorem Reach.passed {cap : Nat} {evs : List (Event ρ)} {s : State ρ} (h : Reach cap evs s)
    {pre post : List (Event ρ)} {t : Nat} {i : Fin 4} (he : evs = pre ++ .passed t i :: post) :
    pushes i pre = takes i pre := by
  induction h generalizing post with
  | init => cases pre <;> simp at he
  | @step evs s a s' e h' hs ih =>
    rcases List.eq_nil_or_concat post with rfl | ⟨post', e', rfl⟩
    · obtain ⟨rfl, hee⟩ := List.append_inj' he rfl
      simp only [List.cons.injEq, and_true] at hee
      subst hee
      have hf := h'.inv.fifo i
      suffices s.runs i = [] by rw [hf, this, List.append_nil]
      cases a with
      | call c => simp [Queue.step] at hs
      | hangup t' =>
        simp only [Queue.step] at hs
        split at hs <;> simp at hs
      | step t' =>
        simp only [Queue.step] at hs
        split at hs
        · split_ifs at hs; simp at hs
        · split_ifs at hs <;> simp at hs
        · split_ifs at hs; simp at hs
        · split_ifs at hs; simp at hs
        · split_ifs at hs with hi
          · split at hs
            · simp at hs
            · rename_i hr
              simp only [Option.some.injEq, Prod.mk.injEq, Event.passed.injEq] at hs
              have : i = ⟨_, hi⟩ := Fin.ext hs.2.2.symm
              rw [this]
              exact hr
          · simp at hs
        · cases hs
    · rw [List.concat_eq_append, ← List.cons_append, ← List.append_assoc] at he
      obtain ⟨h1, -⟩ := List.append_inj' he rfl
      exact ih h1

/-- **C23** Under interference: if `GetRun` took a run from channel `j`, then for every channel of a
higher priority there was a moment between its admission and that receive at which everything ever put
into that channel had been handed out. -/
theorem C23_interference {cap : Nat} {evs : List (Event ρ)} {s : State ρ} (h : Reach cap evs s)
    {pre post : List (Event ρ)} {t : Nat} {r : ρ} {j : Fin 4}
    (he : evs = pre ++ .took t r j :: post) (i : Fin 4) (hij : i < j) :
    ∃ before after, pre = before ++ after ∧ .admitted t ∈ before ∧
      pushes i before = takes i before := by
  obtain ⟨h1, h2⟩ := h.story
  have hm : (.took t r j : Event ρ) ∈ evs := by rw [he]; simp
  have hg := ((C22_calls h t).1 r j).mpr hm
  have hst := h1 t _ hg
  have hd : doneBy t evs = doneBy t pre ++ (.took t r j :: doneBy t post) := by
    rw [he, doneBy_append]
    simp [doneBy, Event.thread]
  generalize hD : doneBy t evs = d at hst hd
  cases hst
  -- the events of the goroutine before the receive
  have hpre : doneBy t pre =
      [.called t .getRun, .admitted t] ++ (List.range j).map (.passed t) := by
    have hpost : doneBy t post = [] := by
      rcases List.append_eq_append_iff.mp hd with ⟨as, -, h4⟩ | ⟨bs, h3, h4⟩
      · have := congrArg List.length h4
        simp at this
        exact List.length_eq_zero_iff.mp (by omega)
      · cases bs with
        | nil => simpa using h4
        | cons b bs =>
          exfalso
          simp only [List.cons_append, List.cons.injEq] at h4
          have : (.took t r j : Event ρ) ∈
              [Event.called t Call.getRun, .admitted t] ++ (List.range j).map (.passed t) := by
            rw [h3, h4.1]
            simp
          simp at this
    rw [hpost] at hd
    exact (List.append_inj' hd rfl).1.symm
  -- locate the moment at which channel i was passed
  have hmem : (.passed t i : Event ρ) ∈ pre := by
    have : (.passed t i : Event ρ) ∈ doneBy t pre := by
      rw [hpre]
      simp
      exact hij
    exact (mem_doneBy.mp this).1
  obtain ⟨b, a, hba⟩ := List.append_of_mem hmem
  refine ⟨b, .passed t i :: a, hba, ?_, ?_⟩
  · have hb : doneBy t pre = doneBy t b ++ (.passed t i :: doneBy t a) := by
      rw [hba, doneBy_append]
      simp [doneBy, Event.thread]
    have : (.admitted t : Event ρ) ∈ doneBy t b := by
      rw [hpre] at hb
      match hb' : doneBy t b with
      | [] => rw [hb'] at hb; simp at hb
      | [_] => rw [hb'] at hb; simp at hb
      | x :: y :: rest =>
        rw [hb'] at hb
        simp at hb
        simp [← hb.2.1]
    exact (mem_doneBy.mp this).1
  · exact h.passed (t := t) (post := a ++ .took t r j :: post) (by rw [he, hba]; simp)

/-- `n` consecutive steps of goroutine `t`. -/
def solo (cap : Nat) (t : Nat) : Nat → State ρ → Option (State ρ)
  | 0, s => some s
  | n + 1, s => (step cap s (.step t)).bind fun r => solo cap t n r.1

theorem solo_scan {cap : Nat} {t : Nat} {j : Fin 4} {r : ρ} {rs : List ρ} :
    ∀ (n : Nat) (s : State ρ) (i : Nat), i + n = j.val →
      s.threads[t]? = some (.scanning i) →
      (∀ k : Fin 4, i ≤ k.val → k < j → s.runs k = []) → s.runs j = r :: rs →
      ∃ s', solo cap t (n + 1) s = some s' ∧ s'.threads[t]? = some (.got r j) ∧
        s'.runs = Function.update s.runs j rs ∧ s'.ready = s.ready ∧
        ∀ u, u ≠ t → s'.threads[u]? = s.threads[u]? := by
  intro n
  induction n with
  | zero =>
    intro s i hi ht _ hj
    obtain ⟨hlt, -⟩ := List.getElem?_eq_some_iff.mp ht
    have hi' : i = j.val := by omega
    subst hi'
    refine ⟨{ s with runs := Function.update s.runs j rs }.goto t (.got r j),
      by simp only [solo, Queue.step, ht, j.isLt, dite_true, Fin.eta, hj]; rfl, ?_, rfl, rfl, ?_⟩
    · simp [State.goto, hlt]
    · intro u hu
      simp [State.goto, List.getElem?_set_ne (Ne.symm hu)]
  | succ n ih =>
    intro s i hi ht hempty hj
    obtain ⟨hlt, -⟩ := List.getElem?_eq_some_iff.mp ht
    have hi4 : i < 4 := by have := j.isLt; omega
    have he : s.runs ⟨i, hi4⟩ = [] := hempty ⟨i, hi4⟩ (le_refl _) (by
      rw [Fin.lt_def]; simp only; omega)
    obtain ⟨s', h1, h2, h3, h4, h5⟩ := ih (s.goto t (.scanning (i + 1))) (i + 1) (by omega)
      (by simp [State.goto, hlt])
      (fun k hk hkj => hempty k (by omega) hkj) hj
    refine ⟨s', ?_, h2, h3, h4, ?_⟩
    · rw [solo]
      simp only [Queue.step, ht, hi4, dite_true, he, Option.bind_some]
      exact h1
    · intro u hu
      rw [h5 u hu]
      simp [State.goto, List.getElem?_set_ne (Ne.symm hu)]

/-- **C23** Without interference: a `GetRun` that finds a token waiting returns, within `j + 2`
operations of its own, the oldest run of the highest non-empty priority `j`, and takes nothing else. -/
theorem C23_highest_first {cap : Nat} {evs : List (Event ρ)} {s : State ρ} (h : Reach cap evs s)
    {t : Nat} (ht : s.threads[t]? = some .waiting) (hr : 0 < s.ready) :
    ∃ (j : Fin 4) (r : ρ) (rs : List ρ) (s' : State ρ),
      s.runs j = r :: rs ∧ (∀ i, i < j → s.runs i = []) ∧
      solo cap t (j.val + 2) s = some s' ∧ s'.threads[t]? = some (.got r j) ∧
      s'.runs = Function.update s.runs j rs := by
  have htot := h.inv.total
  simp only [above, Nat.zero_le, if_true] at htot
  obtain ⟨hlt, -⟩ := List.getElem?_eq_some_iff.mp ht
  obtain ⟨j, hj, hmin⟩ : ∃ j : Fin 4, s.runs j ≠ [] ∧ ∀ i, i < j → s.runs i = [] := by
    by_cases h0 : s.runs 0 = []
    · by_cases h1 : s.runs 1 = []
      · by_cases h2 : s.runs 2 = []
        · by_cases h3 : s.runs 3 = []
          · simp [h0, h1, h2, h3] at htot; omega
          · refine ⟨3, h3, fun i hi => ?_⟩
            match i with
            | 0 => exact h0
            | 1 => exact h1
            | 2 => exact h2
            | 3 => exact absurd hi (by decide)
        · refine ⟨2, h2, fun i hi => ?_⟩
          match i with
          | 0 => exact h0
          | 1 => exact h1
          | 2 => exact absurd hi (by decide)
          | 3 => exact absurd hi (by decide)
      · refine ⟨1, h1, fun i hi => ?_⟩
        match i with
        | 0 => exact h0
        | 1 => exact absurd hi (by decide)
        | 2 => exact absurd hi (by decide)
        | 3 => exact absurd hi (by decide)
    · refine ⟨0, h0, fun i hi => ?_⟩
      exact absurd hi (by simp)
  obtain ⟨r, rs, hrs⟩ := List.exists_cons_of_ne_nil hj
  obtain ⟨s', h1, h2, h3, -, -⟩ := solo_scan (cap := cap) (t := t) (j := j) (r := r) (rs := rs)
    j.val ({ s with ready := s.ready - 1 }.goto t (.scanning 0)) 0 (by omega)
    (by simp [State.goto, hlt]) (fun k _ hk => hmin k hk) hrs
  refine ⟨j, r, rs, s', hrs, hmin, ?_, h2, h3⟩
  rw [solo]
  simp only [Queue.step, ht, hr, if_true, Option.bind_some]
  exact h1

/-! ## Non-vacuity -/

/-- A schedule, as an execution. -/
def exec (cap : Nat) : List (Act ρ) → Option (List (Event ρ) × State ρ)
  | acts => acts.foldlM (fun (p : List (Event ρ) × State ρ) a =>
      (step cap p.2 a).map fun r => (p.1 ++ [r.2], r.1)) ([], {})

theorem reach_of_exec {cap : Nat} {acts : List (Act ρ)} {evs : List (Event ρ)} {s : State ρ}
    (h : exec cap acts = some (evs, s)) : Reach cap evs s := by
  have : ∀ (acts : List (Act ρ)) (p q : List (Event ρ) × State ρ), Reach cap p.1 p.2 →
      acts.foldlM (fun (p : List (Event ρ) × State ρ) a =>
        (step cap p.2 a).map fun r => (p.1 ++ [r.2], r.1)) p = some q → Reach cap q.1 q.2 := by
    intro acts
    induction acts with
    | nil => intro p q hp hq; simp at hq; rwa [← hq]
    | cons a acts ih =>
      intro p q hp hq
      simp only [List.foldlM_cons] at hq
      cases hs : step cap p.2 a with
      | none => rw [hs] at hq; simp at hq
      | some r =>
        rw [hs] at hq
        simp at hq
        exact ih _ _ (.step hp hs) hq
  exact this acts _ (evs, s) .init h

/-- Two consumers and three producers: consumer 2 is admitted for run 10 (low priority) and has passed
the high priority channel when run 20 arrives there; consumer 3 gets run 20, consumer 2 gets run 10, and
run 30 is refused by the full channel. -/
def racySchedule : List (Act Nat) :=
  [.call (.addRun 10 2), .step 0, .call (.addRun 20 0), .step 0, .call .getRun, .call .getRun,
   .step 2, .step 2, .step 1, .step 1, .call (.enqueue 30 0), .step 4, .step 3, .step 3,
   .step 2, .step 2]

example : ∃ s, Reach 1
    [.called 0 (.addRun 10 2), .pushed 0 10 2, .called 1 (.addRun 20 0), .signalled 0,
     .called 2 .getRun, .called 3 .getRun, .admitted 2, .passed 2 0, .pushed 1 20 0, .signalled 1,
     .called 4 (.enqueue 30 0), .refused 4, .admitted 3, .took 3 20 0, .passed 2 1, .took 2 10 2] s ∧
    s.queued = 0 ∧ s.threads = [.enqueued, .enqueued, .got 10 2, .got 20 0, .refused] := by
  obtain ⟨s, hs⟩ : ∃ s, exec 1 racySchedule = some (_, s) := ⟨_, rfl⟩
  exact ⟨s, reach_of_exec hs, by cases hs; decide, by cases hs; rfl⟩

/-- A state in which C23_highest_first applies, with runs in two channels. -/
example : ∃ evs s, Reach (ρ := Nat) 5 evs s ∧ s.threads[2]? = some .waiting ∧ 0 < s.ready ∧
    s.runs 3 = [7] ∧ s.runs 1 = [8] := by
  obtain ⟨p, hp⟩ : ∃ p, exec (ρ := Nat) 5 [.call (.addRun 7 3), .call (.enqueue 8 1), .call .getRun,
    .step 0, .step 1, .step 1] = some p := ⟨_, rfl⟩
  exact ⟨p.1, p.2, reach_of_exec hp, by cases hp; rfl, by cases hp; decide, by cases hp; rfl,
    by cases hp; rfl⟩

end Quark.Queue
