import Verif.Broadcast.Props

/-!
# Slow subscribers do not hold up the broadcaster (C148)
-/

namespace Quark.Broadcast

section
variable {σ μ υ : Type} [DecidableEq σ] [DecidableEq υ]

/-! ## Specification -/

/-- The actions of `Broadcaster.Run` itself. No handler and no subscriber does anything in them. -/
def Act.own : Act σ μ υ → Bool
  | .takeSubscribe | .takeUnsubscribe | .takeDeauth _ | .takeMessage _ | .next => true
  | .connect _ | .disconnect _ | .deauthenticate _ | .broadcast _ | .take _ => false

/-- Nothing is left to do. -/
def Quiet (st : State σ μ υ) : Prop :=
  st.pc = .idle ∧ st.subscribeQ = [] ∧ st.unsubscribeQ = [] ∧ st.deauthQ = [] ∧ st.messageQ = []

/-- How many actions are left, at most: the rest of the loop under way, one for every subscriber that comes or goes,
and for every message and deauthentication a loop over all subscribers. -/
def work (st : State σ μ υ) : Nat :=
  (match st.pc with | .idle => 0 | .dispatch _ l => l.length + 1 | .deauthing _ l => l.length + 1) +
    st.subscribeQ.length + st.unsubscribeQ.length +
    (st.deauthQ.length + st.messageQ.length) * (st.registered.length + st.subscribeQ.length + 2)

/-! ## Proofs -/

theorem bounds_step {w : World σ μ υ} {st st' : State σ μ υ} {a : Act σ μ υ}
    (h : st.subscribeQ.length ≤ 5 ∧ st.unsubscribeQ.length ≤ 5 ∧ st.deauthQ.length ≤ 5 ∧
      st.messageQ.length ≤ w.channelLength) (hs : step w st a = some st') :
    st'.subscribeQ.length ≤ 5 ∧ st'.unsubscribeQ.length ≤ 5 ∧ st'.deauthQ.length ≤ 5 ∧
      st'.messageQ.length ≤ w.channelLength := by
  obtain ⟨h1, h2, h3, h4⟩ := h
  unfold step at hs
  split at hs
  · cases hs
  · cases a with
    | connect s =>
      simp only at hs
      split at hs
      · cases hs
      · split at hs <;> cases hs
        · refine ⟨?_, h2, h3, h4⟩
          simp only [List.length_append, List.length_singleton]; omega
        · exact ⟨h1, h2, h3, h4⟩
    | disconnect s =>
      simp only at hs
      split at hs
      · cases hs
      · split at hs <;> cases hs
        · refine ⟨h1, ?_, h3, h4⟩
          simp only [List.length_append, List.length_singleton]; omega
        · exact ⟨h1, h2, h3, h4⟩
    | deauthenticate u =>
      simp only at hs
      split at hs <;> cases hs
      refine ⟨h1, h2, ?_, h4⟩
      simp only [List.length_append, List.length_singleton]; omega
    | broadcast m =>
      simp only at hs
      split at hs <;> cases hs
      · refine ⟨h1, h2, h3, ?_⟩
        simp only [List.length_append, List.length_singleton]; omega
      · exact ⟨h1, h2, h3, h4⟩
    | takeSubscribe =>
      simp only at hs
      split at hs
      · rename_i s q _ hq
        cases hs
        rw [hq] at h1
        exact ⟨Nat.le_of_succ_le h1, h2, h3, h4⟩
      · cases hs
    | takeUnsubscribe =>
      simp only at hs
      split at hs
      · rename_i s q _ hq
        cases hs
        rw [hq] at h2
        split
        · unfold remove
          split <;> exact ⟨h1, Nat.le_of_succ_le h2, h3, h4⟩
        · exact ⟨h1, Nat.le_of_succ_le h2, h3, h4⟩
      · cases hs
    | takeDeauth order =>
      simp only at hs
      split at hs
      · rename_i u q _ hq
        rw [hq] at h3
        split at hs <;> cases hs
        exact ⟨h1, h2, Nat.le_of_succ_le h3, h4⟩
      · cases hs
    | takeMessage order =>
      simp only at hs
      split at hs
      · rename_i u q _ hq
        rw [hq] at h4
        split at hs <;> cases hs
        exact ⟨h1, h2, h3, Nat.le_of_succ_le h4⟩
      · cases hs
    | next =>
      simp only at hs
      split at hs
      · cases hs
      · cases hs; exact ⟨h1, h2, h3, h4⟩
      · split at hs
        · split at hs
          · cases hs; exact ⟨h1, h2, h3, h4⟩
          · split at hs
            · cases hs; exact ⟨h1, h2, h3, h4⟩
            · cases hs
              unfold remove
              split <;> exact ⟨h1, h2, h3, h4⟩
        · cases hs; exact ⟨h1, h2, h3, h4⟩
      · cases hs; exact ⟨h1, h2, h3, h4⟩
      · split at hs
        · cases hs
          unfold remove
          split <;> exact ⟨h1, h2, h3, h4⟩
        · cases hs; exact ⟨h1, h2, h3, h4⟩
    | take s =>
      simp only at hs
      split at hs
      · cases hs
      · split at hs <;> cases hs
        exact ⟨h1, h2, h3, h4⟩

/-- C148: what waits is bounded: five requests of each kind and `ChannelLength` messages, and for each subscriber
`ChannelLength` messages, however slow it is. -/
theorem C148_bounded (w : World σ μ υ) (st : State σ μ υ) (h : Reach w st) :
    st.subscribeQ.length ≤ 5 ∧ st.unsubscribeQ.length ≤ 5 ∧ st.deauthQ.length ≤ 5 ∧
      st.messageQ.length ≤ w.channelLength ∧ ∀ s, (st.buffer s).length ≤ w.channelLength := by
  have hq : st.subscribeQ.length ≤ 5 ∧ st.unsubscribeQ.length ≤ 5 ∧ st.deauthQ.length ≤ 5 ∧
      st.messageQ.length ≤ w.channelLength := by
    induction h with
    | init => simp
    | step _ hs ih => exact bounds_step ih hs
  exact ⟨hq.1, hq.2.1, hq.2.2.1, hq.2.2.2, fun s => ((inv_reach h).one s).room⟩

omit [DecidableEq υ] in
theorem remove_registered (w : World σ μ υ) (st : State σ μ υ) (s : σ) :
    (remove w st s).registered = st.registered.erase s := by
  unfold remove; split <;> rfl

omit [DecidableEq υ] in
theorem remove_rest (w : World σ μ υ) (st : State σ μ υ) (s : σ) :
    (remove w st s).pc = st.pc ∧ (remove w st s).subscribeQ = st.subscribeQ ∧
      (remove w st s).unsubscribeQ = st.unsubscribeQ ∧ (remove w st s).deauthQ = st.deauthQ ∧
      (remove w st s).messageQ = st.messageQ ∧ (remove w st s).accepted = st.accepted := by
  unfold remove; split <;> exact ⟨rfl, rfl, rfl, rfl, rfl, rfl⟩

theorem mul_mono_two {a b c : Nat} (h : b ≤ c) : a * (b + 2) ≤ a * (c + 2) := Nat.mul_le_mul_left _ (by omega)

omit [DecidableEq υ] in
theorem work_remove (w : World σ μ υ) (st : State σ μ υ) (s : σ) : work (remove w st s) ≤ work st := by
  obtain ⟨e1, e2, e3, e4, e5, -⟩ := remove_rest w st s
  simp only [work, e1, e2, e3, e4, e5, remove_registered]
  have := mul_mono_two (a := st.deauthQ.length + st.messageQ.length)
    (b := (st.registered.erase s).length + st.subscribeQ.length)
    (c := st.registered.length + st.subscribeQ.length)
    (by have := List.length_erase_le (l := st.registered) (a := s); omega)
  omega

/-- Every own action is work done, and takes no message in or out. -/
theorem own_step {w : World σ μ υ} {st st' : State σ μ υ} {a : Act σ μ υ} (ha : a.own = true)
    (hs : step w st a = some st') : work st' < work st ∧ st'.accepted = st.accepted ∧ st'.taken = st.taken := by
  unfold step at hs
  split at hs
  · cases hs
  · cases a with
    | connect s => cases ha
    | disconnect s => cases ha
    | deauthenticate s => cases ha
    | broadcast s => cases ha
    | take s => cases ha
    | takeSubscribe =>
      simp only at hs
      split at hs
      · rename_i s q hp hq
        cases hs
        refine ⟨?_, rfl, rfl⟩
        simp only [work, hp, hq, List.length_cons]
        have h1 : (if s ∈ st.registered then st.registered else s :: st.registered).length ≤ st.registered.length + 1 := by
          split <;> simp
        have := mul_mono_two (a := st.deauthQ.length + st.messageQ.length)
          (b := (if s ∈ st.registered then st.registered else s :: st.registered).length + q.length)
          (c := st.registered.length + (q.length + 1)) (by omega)
        omega
      · cases hs
    | takeUnsubscribe =>
      simp only at hs
      split at hs
      · rename_i s q hp hq
        cases hs
        split
        · refine ⟨Nat.lt_of_le_of_lt (work_remove w _ s) ?_, (remove_rest w _ s).2.2.2.2.2, ?_⟩
          · simp only [work, hp, hq, List.length_cons]
            omega
          · unfold remove; split <;> rfl
        · refine ⟨?_, rfl, rfl⟩
          simp only [work, hp, hq, List.length_cons]
          omega
      · cases hs
    | takeDeauth order =>
      simp only at hs
      split at hs
      · rename_i u q hp hq
        split at hs
        · rename_i hperm
          cases hs
          refine ⟨?_, rfl, rfl⟩
          have := hperm.length_eq
          simp only [work, hp, hq, List.length_cons, this]
          rw [show q.length + 1 + st.messageQ.length = (q.length + st.messageQ.length) + 1 by omega, Nat.succ_mul]
          omega
        · cases hs
      · cases hs
    | takeMessage order =>
      simp only at hs
      split at hs
      · rename_i u q hp hq
        split at hs
        · rename_i hperm
          cases hs
          refine ⟨?_, rfl, rfl⟩
          have := hperm.length_eq
          simp only [work, hp, hq, List.length_cons, this]
          rw [show st.deauthQ.length + (q.length + 1) = (st.deauthQ.length + q.length) + 1 by omega, Nat.succ_mul]
          omega
        · cases hs
      · cases hs
    | next =>
      have htk : ∀ (st1 : State σ μ υ) (s : σ), (remove w st1 s).accepted = st1.accepted ∧ (remove w st1 s).taken = st1.taken := by
        intro st1 s; unfold remove; split <;> exact ⟨rfl, rfl⟩
      simp only at hs
      split at hs
      · cases hs
      · rename_i hp
        cases hs
        exact ⟨by simp only [work, hp, List.length_nil]; omega, rfl, rfl⟩
      · rename_i m s l hp
        split at hs
        · split at hs
          · cases hs
            exact ⟨by simp only [work, hp, List.length_cons]; omega, rfl, rfl⟩
          · split at hs
            · cases hs
              exact ⟨by simp only [work, hp, List.length_cons]; omega, rfl, rfl⟩
            · cases hs
              refine ⟨Nat.lt_of_le_of_lt (work_remove w _ s) ?_, (htk _ s).1, (htk _ s).2⟩
              simp only [work, hp, List.length_cons]; omega
        · cases hs
          exact ⟨by simp only [work, hp, List.length_cons]; omega, rfl, rfl⟩
      · rename_i hp
        cases hs
        exact ⟨by simp only [work, hp, List.length_nil]; omega, rfl, rfl⟩
      · rename_i u s l hp
        split at hs
        · cases hs
          refine ⟨Nat.lt_of_le_of_lt (work_remove w _ s) ?_, (htk _ s).1, (htk _ s).2⟩
          simp only [work, hp, List.length_cons]; omega
        · cases hs
          exact ⟨by simp only [work, hp, List.length_cons]; omega, rfl, rfl⟩

/-- C148: while anything waits, the broadcaster can go on by itself, whatever the subscribers do or do not do. -/
theorem C148_goes_on (w : World σ μ υ) (st : State σ μ υ) (h : Reach w st) (hq : ¬ Quiet st) :
    ∃ a st', a.own = true ∧ step w st a = some st' := by
  have hp := (inv_reach h).calm
  have key : ∀ a : Act σ μ υ, step w st a ≠ none → ∃ st', step w st a = some st' := fun a ha =>
    Option.ne_none_iff_exists'.mp ha
  cases hpc : st.pc with
  | idle =>
    cases h1 : st.subscribeQ with
    | cons s q => exact ⟨.takeSubscribe, _, rfl, by simp only [step, hp, hpc, h1]; rfl⟩
    | nil =>
      cases h2 : st.unsubscribeQ with
      | cons s q => exact ⟨.takeUnsubscribe, _, rfl, by simp only [step, hp, hpc, h2]; rfl⟩
      | nil =>
        cases h3 : st.deauthQ with
        | cons u q =>
          exact ⟨.takeDeauth st.registered, _, rfl, by
            simp only [step, hp, hpc, h3, List.Perm.refl, if_true]; rfl⟩
        | nil =>
          cases h4 : st.messageQ with
          | cons m q =>
            exact ⟨.takeMessage st.registered, _, rfl, by
              simp only [step, hp, hpc, h4, List.Perm.refl, if_true]; rfl⟩
          | nil => exact absurd ⟨hpc, h1, h2, h3, h4⟩ hq
  | dispatch m l =>
    obtain ⟨st', h'⟩ := key .next (by
      cases l with
      | nil => simp [step, hp, hpc]
      | cons s l =>
        simp only [step, hp, hpc, Bool.false_eq_true, if_false]
        split
        · split
          · simp
          · split <;> simp
        · simp)
    exact ⟨.next, st', rfl, h'⟩
  | deauthing u l =>
    obtain ⟨st', h'⟩ := key .next (by
      cases l with
      | nil => simp [step, hp, hpc]
      | cons s l =>
        simp only [step, hp, hpc, Bool.false_eq_true, if_false]
        split <;> simp)
    exact ⟨.next, st', rfl, h'⟩

theorem own_steps {w : World σ μ υ} (as : List (Act σ μ υ)) : ∀ {st st' : State σ μ υ}, (∀ a ∈ as, a.own = true) →
    steps w st as = some st' → as.length + work st' ≤ work st ∧ st'.accepted = st.accepted ∧ st'.taken = st.taken := by
  induction as with
  | nil => intro st st' _ h; cases h; exact ⟨by simp, rfl, rfl⟩
  | cons a as ih =>
    intro st st' ha h
    simp only [steps, Option.bind_eq_some_iff] at h
    obtain ⟨st1, h1, h2⟩ := h
    obtain ⟨g1, g2, g3⟩ := own_step (ha a List.mem_cons_self) h1
    obtain ⟨k1, k2, k3⟩ := ih (fun b hb => ha b (List.mem_cons_of_mem _ hb)) h2
    exact ⟨by simp only [List.length_cons]; omega, k2.trans g2, k3.trans g3⟩

/-- C148: left to itself the broadcaster is done after at most `work` actions, in whatever order it takes from its
channels. -/
theorem C148_no_more_than (w : World σ μ υ) (st st' : State σ μ υ) (as : List (Act σ μ υ)) (ha : ∀ a ∈ as, a.own = true)
    (h : steps w st as = some st') : as.length ≤ work st := by
  have := (own_steps as ha h).1
  omega

/-- C148: without any subscriber taking a single message, the broadcaster gets through with everything that it has
accepted: every accepted message is dispatched. -/
theorem C148_drains (w : World σ μ υ) : ∀ (n : Nat) (st : State σ μ υ), work st ≤ n → Reach w st →
    ∃ as st', (∀ a ∈ as, a.own = true) ∧ steps w st as = some st' ∧ Quiet st' ∧ st'.taken = st.taken ∧
      messages st'.log = st.accepted := by
  intro n
  induction n with
  | zero =>
    intro st hn h
    by_cases hq : Quiet st
    · refine ⟨[], st, by simp, rfl, hq, rfl, ?_⟩
      have := (inv_reach h).order
      rw [hq.2.2.2.2, List.append_nil] at this
      exact this
    · obtain ⟨a, st', ha, hs⟩ := C148_goes_on w st h hq
      have := (own_step ha hs).1
      omega
  | succ n ih =>
    intro st hn h
    by_cases hq : Quiet st
    · refine ⟨[], st, by simp, rfl, hq, rfl, ?_⟩
      have := (inv_reach h).order
      rw [hq.2.2.2.2, List.append_nil] at this
      exact this
    · obtain ⟨a, st1, ha, hs⟩ := C148_goes_on w st h hq
      obtain ⟨g1, g2, g3⟩ := own_step ha hs
      obtain ⟨as, st', h1, h2, h3, h4, h5⟩ := ih st1 (by omega) (.step h hs)
      refine ⟨a :: as, st', ?_, ?_, h3, h4.trans g3, h5.trans g2⟩
      · intro b hb
        rcases List.mem_cons.mp hb with rfl | hb
        · exact ha
        · exact h1 b hb
      · simp only [steps, hs, Option.bind_some, h2]

end

/-- Two subscribers that never read, with room for one message each, and three messages: the broadcaster gets through
and drops both. -/
example : (steps (⟨fun _ => 0, fun _ => true, fun _ _ => true, 1⟩ : World Nat Nat Nat) {}
    [.connect 0, .connect 1, .takeSubscribe, .takeSubscribe, .broadcast 5, .takeMessage [0, 1], .next, .next, .next,
     .broadcast 6, .takeMessage [1, 0], .next, .next, .next]).map
      (fun st => (st.registered, st.buffer 0, st.buffer 1, st.closed 0, st.closed 1, work st)) =
    some ([], [5], [5], true, true, 0) := by decide +kernel

end Quark.Broadcast
