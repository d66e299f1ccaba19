import Verif.Broadcast.Drain
import Mathlib.Data.List.Induction

/-!
# C71: why a subscriber whose connection is gone may stay registered

There are only two ways: its unsubscription found the queue of unsubscriptions full and was dropped, or it was
processed before the subscription.
-/

namespace Quark.Broadcast

section
variable {σ μ υ : Type} [DecidableEq σ] [DecidableEq υ]

omit [DecidableEq υ] in
theorem remove_unsubscribeQ (w : World σ μ υ) (st : State σ μ υ) (s : σ) :
    (remove w st s).unsubscribeQ = st.unsubscribeQ := by
  unfold remove; split_ifs <;> rfl

/-- What one action means for a subscriber that is not in the registry's way: what is known about it. -/
structure Trail (st : State σ μ υ) (s : σ) (dropped : Prop) : Prop where
  fresh : st.phase s = .fresh → .joined s ∉ st.log ∧ s ∉ st.subscribeQ
  gone : st.phase s = .gone → s ∈ st.unsubscribeQ ∨ .left s ∈ st.log ∨ dropped ∨
    (.joined s ∉ st.log ∧ s ∉ st.subscribeQ)

omit [DecidableEq σ] [DecidableEq υ] in
theorem Trail.weaken {st : State σ μ υ} {s : σ} {p q : Prop} (h : Trail st s p) (hpq : p → q) : Trail st s q :=
  ⟨h.fresh, fun hg => by
    rcases h.gone hg with h | h | h | h
    · exact .inl h
    · exact .inr (.inl h)
    · exact .inr (.inr (.inl (hpq h)))
    · exact .inr (.inr (.inr h))⟩

omit [DecidableEq σ] [DecidableEq υ] in
/-- The parts that matter are unchanged, but for further entries of the log that are not about joining. -/
theorem Trail.same {st st' : State σ μ υ} {s : σ} {p : Prop} (h : Trail st s p) (h1 : st'.phase s = st.phase s)
    (h2 : s ∈ st'.subscribeQ → s ∈ st.subscribeQ) (h3 : s ∈ st.unsubscribeQ → s ∈ st'.unsubscribeQ ∨ .left s ∈ st'.log)
    (h4 : ∃ l, st'.log = st.log ++ l ∧ .joined s ∉ l) : Trail st' s p := by
  obtain ⟨l, hl, hj⟩ := h4
  have hj' : .joined s ∉ st.log → .joined s ∉ st'.log := by
    intro h hc
    rw [hl] at hc
    rcases List.mem_append.mp hc with hc | hc
    · exact h hc
    · exact hj hc
  refine ⟨fun hf => ?_, fun hg => ?_⟩
  · rw [h1] at hf
    exact ⟨hj' (h.fresh hf).1, fun hc => (h.fresh hf).2 (h2 hc)⟩
  · rw [h1] at hg
    rcases h.gone hg with h | h | h | h
    · rcases h3 h with h | h
      · exact .inl h
      · exact .inr (.inl h)
    · exact .inr (.inl (by rw [hl]; exact List.mem_append_left _ h))
    · exact .inr (.inr (.inl h))
    · exact .inr (.inr (.inr ⟨hj' h.1, fun hc => h.2 (h2 hc)⟩))

theorem trail_step {w : World σ μ υ} {st st' : State σ μ υ} {a : Act σ μ υ} {s : σ} {p : Prop} (h : Trail st s p)
    (hs : step w st a = some st') : Trail st' s (p ∨ (a = .disconnect s ∧ 5 ≤ st.unsubscribeQ.length)) := by
  have h := h.weaken (q := p ∨ (a = .disconnect s ∧ 5 ≤ st.unsubscribeQ.length)) .inl
  unfold step at hs
  split at hs
  · cases hs
  cases a with
  | connect t =>
    simp only at hs
    split_ifs at hs with h1 h2
    · cases hs
      by_cases hts : s = t
      · subst hts
        exact ⟨fun hc => by simp [upd] at hc, fun hc => by simp [upd] at hc⟩
      · exact h.same (by simp [upd, hts]) (by simp [hts]) .inl ⟨[], by simp⟩
    · cases hs
      by_cases hts : s = t
      · subst hts
        exact ⟨fun hc => by simp [upd] at hc, fun _ => .inr (.inr (.inr (h.fresh (by simpa using h1))))⟩
      · exact h.same (by simp [upd, hts]) id .inl ⟨[], by simp⟩
  | disconnect t =>
    simp only at hs
    split_ifs at hs with h1 h2
    · cases hs
      by_cases hts : s = t
      · subst hts
        exact ⟨fun hc => by simp [upd] at hc, fun _ => .inl (by simp)⟩
      · exact h.same (by simp [upd, hts]) id (fun hq => .inl (by simp [hq])) ⟨[], by simp⟩
    · cases hs
      by_cases hts : s = t
      · subst hts
        exact ⟨fun hc => by simp [upd] at hc, fun _ => .inr (.inr (.inl (.inr ⟨rfl, by omega⟩)))⟩
      · exact h.same (by simp [upd, hts]) id .inl ⟨[], by simp⟩
  | deauthenticate u =>
    simp only at hs
    split_ifs at hs
    cases hs
    exact h.same rfl id .inl ⟨[], by simp⟩
  | broadcast m =>
    simp only at hs
    split_ifs at hs <;> cases hs <;> exact h.same rfl id .inl ⟨[], by simp⟩
  | takeSubscribe =>
    simp only at hs
    split at hs
    · rename_i t q hpc hq
      cases hs
      by_cases hts : s = t
      · subst hts
        refine ⟨fun hc => ?_, fun hg => ?_⟩
        · have := (h.fresh hc).2
          rw [hq] at this
          simp at this
        · rcases h.gone hg with h | h | h | h
          · exact .inl h
          · exact .inr (.inl (List.mem_append_left _ h))
          · exact .inr (.inr (.inl h))
          · have := h.2
            rw [hq] at this
            simp at this
      · exact h.same rfl (fun hc => by rw [hq]; exact List.mem_cons_of_mem _ hc) .inl ⟨[.joined t], rfl, by simp [hts]⟩
    · cases hs
  | takeUnsubscribe =>
    simp only at hs
    split at hs
    · rename_i t q hpc hq
      have key : ∀ x : State σ μ υ, x.phase = st.phase → x.subscribeQ = st.subscribeQ → x.unsubscribeQ = q →
          x.log = st.log ++ [.left t] → Trail x s (p ∨ (Act.takeUnsubscribe = Act.disconnect (μ := μ) (υ := υ) s ∧
            5 ≤ st.unsubscribeQ.length)) := by
        intro x h1 h2 h3 h4
        refine h.same (by rw [h1]) (by rw [h2]; exact id) ?_ ⟨[.left t], h4, by simp⟩
        intro hm
        rw [hq] at hm
        rcases List.mem_cons.mp hm with rfl | hm
        · exact .inr (by rw [h4]; simp)
        · exact .inl (by rw [h3]; exact hm)
      cases hs
      split
      · refine key _ ?_ ?_ ?_ ?_
        · rw [remove_phase]
        · rw [remove_subscribeQ]
        · rw [remove_unsubscribeQ]
        · rw [remove_log]
      · refine key _ ?_ ?_ ?_ ?_ <;> rfl
    · cases hs
  | takeDeauth order =>
    simp only at hs
    split at hs
    · rename_i u q hpc hq
      split_ifs at hs
      cases hs
      exact h.same rfl id .inl ⟨[.deauth u], rfl, by simp⟩
    · cases hs
  | takeMessage order =>
    simp only at hs
    split at hs
    · rename_i m q hpc hq
      split_ifs at hs
      cases hs
      exact h.same rfl id .inl ⟨[.message m], rfl, by simp⟩
    · cases hs
  | next =>
    simp only at hs
    split at hs
    · cases hs
    · cases hs; exact h.same rfl id .inl ⟨[], by simp⟩
    · rename_i m t l hpc
      split_ifs at hs <;> cases hs
      · exact h.same rfl id .inl ⟨[], by simp⟩
      · exact h.same rfl id .inl ⟨[], by simp⟩
      · exact h.same (by simp [remove_phase]) (by simp [remove_subscribeQ])
          (fun hq => .inl (by simpa [remove_unsubscribeQ] using hq)) ⟨[.overflow t], by simp [remove_log], by simp⟩
      · exact h.same rfl id .inl ⟨[], by simp⟩
    · cases hs; exact h.same rfl id .inl ⟨[], by simp⟩
    · split_ifs at hs <;> cases hs
      · exact h.same (by simp [remove_phase]) (by simp [remove_subscribeQ])
          (fun hq => .inl (by simpa [remove_unsubscribeQ] using hq)) ⟨[], by simp [remove_log], by simp⟩
      · exact h.same rfl id .inl ⟨[], by simp⟩
  | take t =>
    simp only at hs
    split_ifs at hs
    split at hs
    · cases hs
    · cases hs; exact h.same rfl id .inl ⟨[], by simp⟩

/-- The handler of `s` found the queue of unsubscriptions full at some moment of the history `as`. -/
def Dropped (w : World σ μ υ) (as : List (Act σ μ υ)) (s : σ) : Prop :=
  ∃ pre post st, as = pre ++ .disconnect s :: post ∧ steps w {} pre = some st ∧ 5 ≤ st.unsubscribeQ.length

theorem steps_append {w : World σ μ υ} (as bs : List (Act σ μ υ)) (st : State σ μ υ) :
    steps w st (as ++ bs) = (steps w st as).bind (steps w · bs) := by
  induction as generalizing st with
  | nil => rfl
  | cons a as ih =>
    simp only [List.cons_append, steps]
    cases step w st a with
    | none => rfl
    | some st' => simp [ih]

theorem trail_steps {w : World σ μ υ} (as : List (Act σ μ υ)) (st : State σ μ υ) (s : σ)
    (h : steps w {} as = some st) : Trail st s (Dropped w as s) := by
  induction as using List.reverseRecOn generalizing st with
  | nil => cases h; exact ⟨fun _ => by simp, fun hc => by cases hc⟩
  | append_singleton as a ih =>
    rw [steps_append] at h
    obtain ⟨st1, h1, h2⟩ := Option.bind_eq_some_iff.mp h
    simp only [steps] at h2
    obtain ⟨st2, h2, h3⟩ := Option.bind_eq_some_iff.mp h2
    cases h3
    refine (trail_step (ih st1 h1) h2).weaken ?_
    rintro (⟨pre, post, x, hx⟩ | ⟨rfl, hl⟩)
    · exact ⟨pre, post ++ [a], x, by rw [hx.1]; simp, hx.2⟩
    · exact ⟨as, [], st1, rfl, h1, hl⟩

/-- **C71**, the causes. If the subscriber of a connection that is gone is registered although its unsubscription
is not waiting (and nothing is being processed), then the unsubscription had found its queue full and was dropped, or
it was processed before the subscription. -/
theorem C71_causes (w : World σ μ υ) (as : List (Act σ μ υ)) (st : State σ μ υ) (h : steps w {} as = some st)
    (hidle : st.pc = .idle) (s : σ) (hgone : st.phase s = .gone) (hq : s ∉ st.unsubscribeQ) (hr : s ∈ st.registered) :
    (∃ pre post st', as = pre ++ .disconnect s :: post ∧ steps w {} pre = some st' ∧ 5 ≤ st'.unsubscribeQ.length) ∨
    ∃ l1 l2 l3, st.log = l1 ++ .left s :: l2 ++ .joined s :: l3 := by
  have hreach := reach_steps .init h
  have hj : .joined s ∈ st.log := by
    by_contra hc
    have := (((inv_reach hreach).one s).active).mp hr
    rw [hidle] at this
    simp only [doomed, or_false, account] at this
    have h1 := fold_absent w s st.log [] hc
    rw [h1] at this
    simp at this
  rcases (trail_steps as st s h).gone hgone with h1 | h1 | h1 | h1
  · exact absurd h1 hq
  · right
    obtain ⟨l1, l2, hl⟩ := List.append_of_mem h1
    rw [hl] at hj
    rcases List.mem_append.mp hj with hj | hj
    · obtain ⟨a, b, hab⟩ := List.append_of_mem hj
      exact absurd hr (C71_unregistered_partial w st hreach hidle s a b l2 (by rw [hl, hab]))
    · rcases List.mem_cons.mp hj with hj | hj
      · cases hj
      · obtain ⟨a, b, hab⟩ := List.append_of_mem hj
        exact ⟨l1, a, b, by rw [hl, hab]; simp⟩
  · exact .inl h1
  · exact absurd hj h1.1

end

/-- The first cause: six connections end at the same time; the sixth unsubscription is dropped. -/
theorem C71_dropped : ∃ st, steps demo {} ([.connect 0, .takeSubscribe, .connect 1, .takeSubscribe, .connect 2,
      .takeSubscribe, .connect 3, .takeSubscribe, .connect 4, .takeSubscribe, .connect 5, .takeSubscribe,
      .disconnect 0, .disconnect 1, .disconnect 2, .disconnect 3, .disconnect 4, .disconnect 5] ++
      List.replicate 5 .takeUnsubscribe) = some st ∧ st.registered = [5] ∧ st.phase 5 = .gone ∧
    st.unsubscribeQ = [] ∧ st.subscribeQ = [] :=
  ⟨_, rfl, by decide +kernel⟩

end Quark.Broadcast
