import Verif.Broadcast.Leak

/-!
# The counters of the broadcaster

What `Broadcaster` and the transports tell the metrics (/repo/broadcaster/subscriber.go:20-43, 128-206 and
/repo/broadcaster/transport.go:96-97, 166-167; the metrics are /repo/cmd/omegaup-broadcaster/metrics.go:8-51), beside the gauges,
which are in the model itself. Simplification: how long something took is left out, only that it was observed.
-/

namespace Quark.Broadcast

variable {σ μ υ : Type} [DecidableEq σ] [DecidableEq υ]

/-- The counters, and the number of observations of the summaries (cmd/omegaup-broadcaster/metrics.go:8-39). -/
structure Counters where
  /-- `messages_total` -/
  messages : Nat := 0
  /-- `channel_drop_total` -/
  drops : Nat := 0
  /-- `process_latency_seconds` -/
  processed : Nat := 0
  /-- `dispatch_latency_seconds` -/
  dispatched : Nat := 0
  deriving DecidableEq

/-- What an action that is possible in `st` does to them. -/
def observe (w : World σ μ υ) (st : State σ μ υ) (c : Counters) : Act σ μ υ → Counters
  -- broadcaster/subscriber.go:171-178
  | .broadcast _ =>
    if st.messageQ.length < w.channelLength then c
    else { c with processed := c.processed + 1, drops := c.drops + 1 }
  -- broadcaster/subscriber.go:184-192
  | .connect _ => if st.subscribeQ.length < 5 then c else { c with drops := c.drops + 1 }
  -- broadcaster/subscriber.go:197-205
  | .disconnect _ => if st.unsubscribeQ.length < 5 then c else { c with drops := c.drops + 1 }
  -- broadcaster/subscriber.go:135-136
  | .takeMessage _ => { c with messages := c.messages + 1 }
  | .next =>
    match st.pc with
    -- broadcaster/subscriber.go:151
    | .dispatch _ [] => { c with processed := c.processed + 1 }
    -- broadcaster/subscriber.go:138-148
    | .dispatch m (s :: _) =>
      if w.wants s m = true ∧ st.closed s = false ∧ ¬ (st.buffer s).length < w.channelLength then
        { c with drops := c.drops + 1 }
      else c
    | _ => c
  -- broadcaster/transport.go:97, 167
  | .take _ => { c with dispatched := c.dispatched + 1 }
  | _ => c

/-- The executions, with their actions and the counters after them. -/
inductive Counted (w : World σ μ υ) : List (Act σ μ υ) → State σ μ υ → Counters → Prop
  | init : Counted w [] {} {}
  | step {as st st' c a} : Counted w as st c → step w st a = some st' → Counted w (as ++ [a]) st' (observe w st c a)

theorem Counted.reach {w : World σ μ υ} {as : List (Act σ μ υ)} {st : State σ μ υ} {c : Counters}
    (h : Counted w as st c) : Reach w st := by
  induction h with
  | init => exact .init
  | step _ hs ih => exact .step ih hs

/-! ### Specification -/

def isBroadcast : Act σ μ υ → Bool
  | .broadcast _ => true
  | _ => false
def isConnect : Act σ μ υ → Bool
  | .connect _ => true
  | _ => false
def isDisconnect : Act σ μ υ → Bool
  | .disconnect _ => true
  | _ => false
def isJoined : Event σ μ υ → Bool
  | .joined _ => true
  | _ => false
def isLeft : Event σ μ υ → Bool
  | .left _ => true
  | _ => false
def isOverflow : Event σ μ υ → Bool
  | .overflow _ => true
  | _ => false

/-- 1 while a message is being given to the subscribers. -/
def underway : Pc σ μ υ → Nat
  | .dispatch _ _ => 1
  | _ => 0

/-! ### The invariant -/

structure Tally (as : List (Act σ μ υ)) (st : State σ μ υ) (c : Counters) : Prop where
  msgs : c.messages + st.messageQ.length = st.accepted.length
  proc : c.processed + st.messageQ.length + underway st.pc = as.countP isBroadcast
  drop : c.drops + st.accepted.length + (st.log.countP isJoined + st.subscribeQ.length) +
      (st.log.countP isLeft + st.unsubscribeQ.length) =
    as.countP isBroadcast + as.countP isConnect + as.countP isDisconnect + st.log.countP isOverflow
  acc : st.accepted.length ≤ as.countP isBroadcast
  conn : st.log.countP isJoined + st.subscribeQ.length ≤ as.countP isConnect
  disc : st.log.countP isLeft + st.unsubscribeQ.length ≤ as.countP isDisconnect

section
omit [DecidableEq υ]
variable (w : World σ μ υ) (st : State σ μ υ) (s : σ)
@[simp] theorem remove_messageQ' : (remove w st s).messageQ = st.messageQ := by unfold remove; split <;> rfl
@[simp] theorem remove_accepted' : (remove w st s).accepted = st.accepted := by unfold remove; split <;> rfl
@[simp] theorem remove_log' : (remove w st s).log = st.log := by unfold remove; split <;> rfl
@[simp] theorem remove_subscribeQ' : (remove w st s).subscribeQ = st.subscribeQ := by unfold remove; split <;> rfl
@[simp] theorem remove_unsubscribeQ' : (remove w st s).unsubscribeQ = st.unsubscribeQ := by unfold remove; split <;> rfl
@[simp] theorem remove_pc' : (remove w st s).pc = st.pc := by unfold remove; split <;> rfl
@[simp] theorem remove_taken' : (remove w st s).taken = st.taken := by unfold remove; split <;> rfl
end

theorem tally_step {w : World σ μ υ} {as : List (Act σ μ υ)} {st st' : State σ μ υ} {c : Counters} {a : Act σ μ υ}
    (h : Tally as st c) (hs : step w st a = some st') : Tally (as ++ [a]) st' (observe w st c a) := by
  obtain ⟨h1, h2, h3, h4, h5, h6⟩ := h
  unfold step at hs
  split at hs
  · cases hs
  cases a with
  | connect s =>
    dsimp only at hs
    split at hs
    · cases hs
    split at hs
    all_goals
      rename_i hq
      cases hs
      refine ⟨?_, ?_, ?_, ?_, ?_, ?_⟩ <;>
        simp [observe, hq, isBroadcast, isConnect, isDisconnect] <;> omega
  | disconnect s =>
    dsimp only at hs
    split at hs
    · cases hs
    split at hs
    all_goals
      rename_i hq
      cases hs
      refine ⟨?_, ?_, ?_, ?_, ?_, ?_⟩ <;>
        simp [observe, hq, isBroadcast, isConnect, isDisconnect] <;> omega
  | deauthenticate u =>
    dsimp only at hs
    split at hs
    · cases hs
      refine ⟨?_, ?_, ?_, ?_, ?_, ?_⟩ <;> simp [observe, isBroadcast, isConnect, isDisconnect] <;> omega
    · cases hs
  | broadcast m =>
    dsimp only at hs
    split at hs
    all_goals
      rename_i hq
      cases hs
      refine ⟨?_, ?_, ?_, ?_, ?_, ?_⟩ <;>
        simp [observe, hq, isBroadcast, isConnect, isDisconnect] <;> omega
  | takeSubscribe =>
    dsimp only at hs
    split at hs
    · rename_i s q hpc hq
      cases hs
      rw [hq] at h3 h5
      simp only [List.length_cons] at h3 h5
      refine ⟨?_, ?_, ?_, ?_, ?_, ?_⟩ <;>
        simp [observe, isBroadcast, isConnect, isDisconnect, isJoined, isLeft, isOverflow] <;> omega
    · cases hs
  | takeUnsubscribe =>
    dsimp only at hs
    split at hs
    · rename_i s q hpc hq
      rw [hq] at h3 h6
      simp only [List.length_cons] at h3 h6
      split at hs
      all_goals
        cases hs
        refine ⟨?_, ?_, ?_, ?_, ?_, ?_⟩ <;>
          simp [observe, isBroadcast, isConnect, isDisconnect, isJoined, isLeft, isOverflow] <;> omega
    · cases hs
  | takeDeauth order =>
    dsimp only at hs
    split at hs
    · rename_i u q hpc hq
      rw [hpc] at h2
      split at hs
      · cases hs
        refine ⟨?_, ?_, ?_, ?_, ?_, ?_⟩ <;>
          simp [observe, isBroadcast, isConnect, isDisconnect, isJoined, isLeft, isOverflow, underway] at h2 ⊢ <;> omega
      · cases hs
    · cases hs
  | takeMessage order =>
    dsimp only at hs
    split at hs
    · rename_i m q hpc hq
      rw [hpc] at h2
      rw [hq] at h1 h2
      simp only [List.length_cons, underway] at h1 h2
      split at hs
      · cases hs
        refine ⟨?_, ?_, ?_, ?_, ?_, ?_⟩ <;>
          simp [observe, isBroadcast, isConnect, isDisconnect, isJoined, isLeft, isOverflow, underway] <;> omega
      · cases hs
    · cases hs
  | next =>
    dsimp only at hs
    split at hs
    · cases hs
    · rename_i m hpc
      cases hs
      rw [hpc] at h2
      simp only [underway] at h2
      refine ⟨?_, ?_, ?_, ?_, ?_, ?_⟩ <;>
        simp [observe, hpc, isBroadcast, isConnect, isDisconnect, underway] <;> omega
    · rename_i m s todo hpc
      rw [hpc] at h2
      simp only [underway] at h2
      by_cases hw : w.wants s m = true
      · rw [if_pos hw] at hs
        split at hs
        · rename_i hcl
          cases hs
          refine ⟨?_, ?_, ?_, ?_, ?_, ?_⟩ <;>
            simp [observe, hpc, hw, show st.closed s = true from hcl, isBroadcast, isConnect, isDisconnect, underway] <;>
            omega
        · rename_i hcl
          have hcl' : st.closed s = false := by simpa using hcl
          split at hs
          · rename_i hb
            have hb' : (st.buffer s).length < w.channelLength := hb
            cases hs
            refine ⟨?_, ?_, ?_, ?_, ?_, ?_⟩ <;>
              simp [observe, hpc, hw, hcl', hb', isBroadcast, isConnect, isDisconnect, underway] <;> omega
          · rename_i hb
            have hb' : ¬ (st.buffer s).length < w.channelLength := hb
            cases hs
            have e : observe w st c .next = { c with drops := c.drops + 1 } := by
              simp only [observe, hpc]
              rw [if_pos ⟨hw, hcl', hb'⟩]
            rw [e]
            refine ⟨?_, ?_, ?_, ?_, ?_, ?_⟩ <;>
              simp [isBroadcast, isConnect, isDisconnect, isJoined, isLeft, isOverflow, underway] <;> omega
      · rw [if_neg hw] at hs
        cases hs
        have hwf : w.wants s m = false := by simpa using hw
        refine ⟨?_, ?_, ?_, ?_, ?_, ?_⟩ <;>
          simp [observe, hpc, hwf, isBroadcast, isConnect, isDisconnect, underway] <;> omega
    · rename_i u hpc
      cases hs
      rw [hpc] at h2
      simp only [underway] at h2
      refine ⟨?_, ?_, ?_, ?_, ?_, ?_⟩ <;>
        simp [observe, hpc, isBroadcast, isConnect, isDisconnect, underway] <;> omega
    · rename_i u s todo hpc
      rw [hpc] at h2
      simp only [underway] at h2
      split at hs
      all_goals
        cases hs
        refine ⟨?_, ?_, ?_, ?_, ?_, ?_⟩ <;>
          simp [observe, hpc, isBroadcast, isConnect, isDisconnect, underway] <;> omega
  | take s =>
    dsimp only at hs
    split at hs
    · cases hs
    split at hs
    · cases hs
    · cases hs
      refine ⟨?_, ?_, ?_, ?_, ?_, ?_⟩ <;> simp [observe, isBroadcast, isConnect, isDisconnect] <;> omega

theorem tally {w : World σ μ υ} {as : List (Act σ μ υ)} {st : State σ μ υ} {c : Counters} (h : Counted w as st c) :
    Tally as st c := by
  induction h with
  | init => exact ⟨rfl, rfl, rfl, by simp, by simp, by simp⟩
  | step _ hs ih => exact tally_step ih hs

/-! ### C179 -/

/-- **C179** `messages_total` counts the accepted messages that were taken from the queue, each once: all the accepted ones
when none waits, and refused ones never. -/
theorem C179_messages {w : World σ μ υ} {as : List (Act σ μ υ)} {st : State σ μ υ} {c : Counters} (h : Counted w as st c) :
    c.messages = (messages st.log).length ∧ c.messages + st.messageQ.length = st.accepted.length := by
  have h1 := (tally h).msgs
  have h2 := congrArg List.length (C42_order w st h.reach)
  rw [List.length_append] at h2
  exact ⟨by omega, h1⟩

/-- **C179** `channel_drop_total` is the number of writes to a channel that failed: calls of `Broadcast`, `Subscribe` and
`Unsubscribe` whose queue was full (all the calls, but those whose message, subscriber or wish to leave was accepted), and
messages for a subscriber whose buffer was full. -/
theorem C179_drops {w : World σ μ υ} {as : List (Act σ μ υ)} {st : State σ μ υ} {c : Counters} (h : Counted w as st c) :
    ∃ messages subscriptions departures : Nat,
      messages + st.accepted.length = as.countP isBroadcast ∧
      subscriptions + (st.log.countP isJoined + st.subscribeQ.length) = as.countP isConnect ∧
      departures + (st.log.countP isLeft + st.unsubscribeQ.length) = as.countP isDisconnect ∧
      c.drops = messages + subscriptions + departures + st.log.countP isOverflow := by
  obtain ⟨_, _, h3, h4, h5, h6⟩ := tally h
  exact ⟨_, _, _, Nat.sub_add_cancel h4, Nat.sub_add_cancel h5, Nat.sub_add_cancel h6, by omega⟩

/-- **C179** `process_latency_seconds` has one observation for every call of `Broadcast`, whether the message was accepted
or not, but for those that wait in the queue and the one that is being given to the subscribers. -/
theorem C179_processed {w : World σ μ υ} {as : List (Act σ μ υ)} {st : State σ μ υ} {c : Counters} (h : Counted w as st c) :
    c.processed + st.messageQ.length + (match st.pc with | .dispatch _ _ => 1 | _ => 0) = as.countP isBroadcast := by
  have := (tally h).proc
  unfold underway at this
  exact this

theorem sum_upd {l : List σ} (hl : l.Nodup) (f : σ → List μ) (s : σ) (hs : s ∈ l) (m : μ) :
    (l.map fun t => (upd f s (f s ++ [m]) t).length).sum = (l.map fun t => (f t).length).sum + 1 := by
  induction l with
  | nil => cases hs
  | cons x l ih =>
    rw [List.nodup_cons] at hl
    simp only [List.map_cons, List.sum_cons]
    by_cases e : x = s
    · subst e
      have : (l.map fun t => (upd f x (f x ++ [m]) t).length) = l.map fun t => (f t).length := by
        apply List.map_congr_left
        intro t ht
        have : t ≠ x := fun e => hl.1 (e ▸ ht)
        simp [upd, this]
      rw [this]; simp [upd]; omega
    · have hs' : s ∈ l := by
        rcases List.mem_cons.mp hs with h | h
        · exact absurd h.symm e
        · exact h
      rw [ih hl.2 hs']
      simp [upd, e]; omega

/-- **C179** `dispatch_latency_seconds` has one observation for every message that was given to the connection of a
subscriber: as many as there are subscribers it is given to, and none for a message that nobody gets. -/
theorem C179_dispatched {w : World σ μ υ} {as : List (Act σ μ υ)} {st : State σ μ υ} {c : Counters} (h : Counted w as st c)
    (l : List σ) (hl : l.Nodup) (hall : ∀ s, st.taken s ≠ [] → s ∈ l) :
    c.dispatched = (l.map fun s => (st.taken s).length).sum := by
  induction h with
  | init =>
    clear hall hl
    induction l with
    | nil => rfl
    | cons x l ih => simpa using ih
  | @step as st st' c a hc hs ih =>
    have hkeep : (∀ s, a ≠ .take s) → st'.taken = st.taken ∧ (observe w st c a).dispatched = c.dispatched := by
      intro hn
      constructor
      · unfold step at hs
        split at hs
        · cases hs
        cases a with
        | take s => exact absurd rfl (hn s)
        | next =>
          dsimp only at hs
          (repeat' split at hs) <;> first | cases hs | skip
          all_goals first | rfl | simp
        | _ =>
          dsimp only at hs
          (repeat' split at hs) <;> first | cases hs | skip
          all_goals first | rfl | simp
      · cases a with
        | take s => exact absurd rfl (hn s)
        | next =>
          unfold observe
          dsimp only
          split
          · rfl
          · split <;> rfl
          · rfl
        | _ =>
          unfold observe
          dsimp only
          try (split <;> rfl)
    by_cases ht : ∃ s, a = .take s
    · obtain ⟨s, rfl⟩ := ht
      unfold step at hs
      split at hs
      · cases hs
      dsimp only at hs
      split at hs
      · cases hs
      split at hs
      · cases hs
      · rename_i m ms hb
        cases hs
        have hin : s ∈ l := hall s (by simp [upd])
        rw [sum_upd hl _ s hin]
        rw [← ih (fun t htk => hall t (by
          by_cases e : t = s
          · subst e; simp [upd]
          · simpa [upd, e] using htk))]
        rfl
    · obtain ⟨e1, e2⟩ := hkeep (fun s e => ht ⟨s, e⟩)
      rw [e2, e1]
      exact ih (fun t htk => hall t (by rw [e1]; exact htk))

/-- An execution with its counters. -/
def counted (w : World σ μ υ) : State σ μ υ → Counters → List (Act σ μ υ) → Option (State σ μ υ × Counters)
  | st, c, [] => some (st, c)
  | st, c, a :: as => (step w st a).bind fun st' => counted w st' (observe w st c a) as

theorem counted_sound {w : World σ μ υ} (as : List (Act σ μ υ)) :
    ∀ {done : List (Act σ μ υ)} {st st' : State σ μ υ} {c c' : Counters}, Counted w done st c →
      counted w st c as = some (st', c') → Counted w (done ++ as) st' c' := by
  induction as with
  | nil =>
    intro done st st' c c' h hs
    cases hs
    simpa using h
  | cons a as ih =>
    intro done st st' c c' h hs
    simp only [counted, Option.bind_eq_some_iff] at hs
    obtain ⟨s1, h1, h2⟩ := hs
    have := ih (Counted.step h h1) h2
    simpa using this

/-- Five messages are broadcast to two subscribers; the second does not read, and its channel is dropped; the first reads one
message. Two more messages than the queue holds are broadcast in the end. -/
theorem C179_demo : ∃ st c, Counted demo (demoActs ++ [.broadcast 10, .broadcast 11, .broadcast 12, .broadcast 13]) st c ∧
    c = { messages := 5, drops := 3, processed := 7, dispatched := 1 } ∧ st.messageQ = [10, 11] ∧ st.taken 0 = [2] := by
  have h : (counted demo {} {} (demoActs ++ [.broadcast 10, .broadcast 11, .broadcast 12, .broadcast 13])).map
      (fun x => (x.2, x.1.messageQ, x.1.taken 0)) =
      some ({ messages := 5, drops := 3, processed := 7, dispatched := 1 }, [10, 11], [2]) := by decide +kernel
  obtain ⟨⟨st, c⟩, h1, h2⟩ := Option.map_eq_some_iff.mp h
  have h3 := counted_sound _ (.init (w := demo)) h1
  simp only [Prod.mk.injEq] at h2
  exact ⟨st, c, h3, h2.1, h2.2.1, h2.2.2⟩

end Quark.Broadcast
