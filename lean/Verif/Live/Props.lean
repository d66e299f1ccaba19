import Verif.Live.Model
import Verif.Publish.Props

/-!
# C180: what a browser sees of the broadcasts
-/

namespace Quark.Live

open Quark.Broadcast (upd Event Removes)
open Quark.Sse (Turn)
open Quark.Sse.Spec (Bytes OneLine plain events)

variable {σ : Type} [DecidableEq σ]

/-! ## Specification -/

/-- What the broadcaster accepted from the grader and the frontend. -/
def Said (st : State σ) (m : Message) : Prop := m ∈ st.core.accepted

/-- The browser of `s` has received this: any beginning of what was written to its connection. -/
def Received (st : State σ) (s : σ) (bytes : Bytes) : Prop := bytes <+: Sse.written (st.turns s)

/-- The messages that the broadcaster has processed since `s` joined, until it was removed, if it was. -/
inductive Since (w : World σ) (s : σ) (log : List (Event σ Message Filter.Text)) : List Message → Prop
  | live (before after : List (Event σ Message Filter.Text)) (h : log = before ++ .joined s :: after)
      (hlive : ∀ e ∈ after, ¬ Removes w.core s e) : Since w s log (Broadcast.messages after)
  | removed (before after rest : List (Event σ Message Filter.Text)) (r : Event σ Message Filter.Text)
      (h : log = before ++ .joined s :: (after ++ r :: rest)) (hlive : ∀ e ∈ after, ¬ Removes w.core s e)
      (hr : Removes w.core s r) : Since w s log (Broadcast.messages after)
  | never (h : Event.joined s ∉ log) : Since w s log []

/-! ## Invariant -/

theorem core_step {w : World σ} {st st' : State σ} {a : Act σ} (h : step w st a = some st') :
    st'.core = st.core ∨ ∃ b, Broadcast.step w.core st.core b = some st'.core := by
  unfold step at h
  split at h
  · cases h
  · split at h
    · obtain ⟨c, hc, rfl⟩ := Option.map_eq_some_iff.1 h; exact .inr ⟨_, hc⟩
    · cases h
  · obtain ⟨c, hc, rfl⟩ := Option.map_eq_some_iff.1 h; exact .inr ⟨_, hc⟩
  · split at h
    · cases h
    · split at h
      · cases h
      · obtain ⟨c, hc, rfl⟩ := Option.map_eq_some_iff.1 h; exact .inr ⟨_, hc⟩
  · split at h
    · cases h
    · injection h with h; subst h; exact .inl rfl
  · split at h
    · cases h
    · injection h with h; subst h; exact .inl rfl

theorem core_reach {w : World σ} {st : State σ} (h : Reach w st) : Broadcast.Reach w.core st.core := by
  induction h with
  | init => exact .init
  | step _ hs ih =>
    rcases core_step hs with h | ⟨b, h⟩
    · rw [h]; exact ih
    · exact .step ih h

omit [DecidableEq σ] in
theorem messages_snoc (turns : List Turn) (t : Turn) :
    Sse.messages (turns ++ [t]) = Sse.messages turns ++ (match t with | .message x _ => [x] | _ => []) := by
  cases t <;> simp [Sse.messages]

/-- Only `take` changes what has been taken. -/
theorem taken_other {w : World σ} {c c' : Broadcast.State σ Message Filter.Text} {a : Broadcast.Act σ Message Filter.Text}
    (ha : ∀ s, a ≠ .take s) (h : Broadcast.step w.core c a = some c') : c'.taken = c.taken := by
  unfold Broadcast.step at h
  split at h
  · cases h
  · have hrem : ∀ (c : Broadcast.State σ Message Filter.Text) (s : σ), (Broadcast.remove w.core c s).taken = c.taken := by
      intro c s; unfold Broadcast.remove; split <;> rfl
    cases a with
    | take s => exact absurd rfl (ha s)
    | _ =>
      dsimp only at h
      repeat' split at h
      all_goals first
        | cases h; done
        | (injection h with h; subst h; first | rfl | (simp only [hrem]))

theorem taken_take {w : World σ} {c c' : Broadcast.State σ Message Filter.Text} {s : σ} {m : Message} {ms : List Message}
    (hb : c.buffer s = m :: ms) (h : Broadcast.step w.core c (.take s) = some c') :
    c'.taken = upd c.taken s (c.taken s ++ [m]) := by
  unfold Broadcast.step at h
  split at h
  · cases h
  · dsimp only at h
    split at h
    · cases h
    · rw [hb] at h
      injection h with h; subst h; rfl

/-- What has been written are the texts that have been taken. -/
theorem turns_taken {w : World σ} {st : State σ} (h : Reach w st) (s : σ) :
    Sse.messages (st.turns s) = (st.core.taken s).map (·.text) := by
  induction h with
  | init => rfl
  | @step st st' a _ hs ih =>
    unfold step at hs
    split at hs
    · cases hs
    · split at hs
      · obtain ⟨c, hc, rfl⟩ := Option.map_eq_some_iff.1 hs
        rw [taken_other (by simp) hc]; exact ih
      · cases hs
    · rename_i b hn1 hn2
      obtain ⟨c, hc, rfl⟩ := Option.map_eq_some_iff.1 hs
      rw [taken_other (fun t ht => hn1 t ht) hc]; exact ih
    · split at hs
      · cases hs
      · split at hs
        · cases hs
        · rename_i t f _ _ m ms hb
          obtain ⟨c, hc, rfl⟩ := Option.map_eq_some_iff.1 hs
          rw [taken_take hb hc]
          by_cases hst : s = t
          · subst hst; simp [upd, messages_snoc, ih]
          · simp [upd, hst, ih]
    · split at hs
      · cases hs
      · rename_i t f _
        injection hs with hs; subst hs
        by_cases hst : s = t
        · subst hst; simp [upd, messages_snoc, ih]
        · simp [upd, hst, ih]
    · split at hs
      · cases hs
      · rename_i t _
        injection hs with hs; subst hs
        by_cases hst : s = t
        · subst hst; simp [upd, messages_snoc, ih]
        · simp [upd, hst, ih]

/-- What has been taken is a beginning of what was processed in its time. -/
theorem since_taken {w : World σ} {st : State σ} (h : Reach w st) (s : σ) : ∃ ms, Since w s st.core.log ms ∧
    st.core.taken s <+: ms.filter fun m => (w.who s).accepts m.about := by
  have hc := core_reach h
  obtain ⟨tail, h1, -, -⟩ := ((Broadcast.inv_reach hc).one s).stream
  have hpre : st.core.taken s <+: (Broadcast.account w.core s st.core.log).2 := by
    rw [h1, List.append_assoc]; exact ⟨_, rfl⟩
  rcases Broadcast.hist_reach hc s with hn | ⟨-, -, l1, l2, h3, h4, h5⟩
  · refine ⟨[], .never hn, ?_⟩
    rw [Broadcast.account, Broadcast.fold_absent w.core s _ _ hn] at hpre
    exact hpre
  · rcases Broadcast.split_removes w.core s l2 with h6 | ⟨a, r, b, h6, h7, h8⟩
    · refine ⟨_, .live l1 l2 h3 h6, ?_⟩
      rw [h3, Broadcast.account_live w.core s l1 l2 h4 h6] at hpre
      exact hpre
    · subst h6
      refine ⟨_, .removed l1 a b r h3 h7 h8, ?_⟩
      rw [h3, Broadcast.account_removed w.core s l1 a b r h4 h7 h8 (fun hm => h5 (by simp [hm]))] at hpre
      exact hpre

theorem since_said {w : World σ} {s : σ} {log : List (Event σ Message Filter.Text)} {ms : List Message} (h : Since w s log ms)
    (m : Message) (hm : m ∈ ms) : m ∈ Broadcast.messages log := by
  cases h with
  | live before after h _ => rw [h, Broadcast.messages_append]; simp [Broadcast.messages, hm]
  | removed before after rest r h _ _ =>
    rw [h, Broadcast.messages_append, show Broadcast.messages (Event.joined s :: (after ++ r :: rest)) =
      Broadcast.messages (after ++ r :: rest) from rfl, Broadcast.messages_append]
    simp [hm]
  | never => cases hm

theorem said_of_since {w : World σ} {st : State σ} (h : Reach w st) {s : σ} {ms : List Message}
    (hs : Since w s st.core.log ms) (m : Message) (hm : m ∈ ms) : Said st m := by
  rw [Said, ← Broadcast.C42_order w.core st.core (core_reach h)]
  exact List.mem_append_left _ (since_said hs m hm)

/-! ## C180 -/

/-- **C180** (no gaps, no changes). If no message has line ends, then, wherever its connection is cut, what the browser of a
subscriber has dispatched are the first so many of the messages that its filters accept among those processed since it joined
and until it was removed, in order, each exactly as it was said. -/
theorem C180_stream (w : World σ) (st : State σ) (h : Reach w st) (hlines : ∀ m, Said st m → OneLine m.text) (s : σ)
    (bytes : Bytes) (hr : Received st s bytes) :
    ∃ ms, Since w s st.core.log ms ∧
      events bytes <+: (ms.filter fun m => (w.who s).accepts m.about).map fun m => plain m.text := by
  obtain ⟨ms, h1, h2⟩ := since_taken h s
  refine ⟨ms, h1, ?_⟩
  have hone : ∀ x ∈ Sse.messages (st.turns s), OneLine x := by
    rw [turns_taken h s]
    intro x hx
    obtain ⟨m, hm, rfl⟩ := List.mem_map.1 hx
    exact hlines m (said_of_since h h1 m (List.mem_of_mem_filter (h2.subset hm)))
  have := Sse.C163_prefix (st.turns s) hone bytes hr
  rw [turns_taken h s, List.map_map] at this
  exact this.trans (List.IsPrefix.map _ h2)

/-- **C180** (nothing is held back). While the broadcaster has nothing to do, the goroutine of a registered subscriber has taken
all that was queued for it, and its connection works, its browser has dispatched all of them. -/
theorem C180_complete (w : World σ) (st : State σ) (h : Reach w st) (hlines : ∀ m, Said st m → OneLine m.text) (s : σ)
    (hreg : s ∈ st.core.registered) (hidle : st.core.pc = .idle) (hbuf : st.core.buffer s = [])
    (hok : Sse.Succeeded (st.turns s)) :
    ∃ before after, st.core.log = before ++ .joined s :: after ∧ (∀ e ∈ after, ¬ Removes w.core s e) ∧
      events (Sse.written (st.turns s)) =
        ((Broadcast.messages after).filter fun m => (w.who s).accepts m.about).map fun m => plain m.text := by
  obtain ⟨l1, l2, h1, h2, h3⟩ := Broadcast.C42_live w.core st.core (core_reach h) s hreg hidle
  refine ⟨l1, l2, h1, h2, ?_⟩
  rw [hbuf, List.append_nil] at h3
  have hone : ∀ x ∈ Sse.messages (st.turns s), OneLine x := by
    rw [turns_taken h s, h3]
    intro x hx
    obtain ⟨m, hm, rfl⟩ := List.mem_map.1 hx
    exact hlines m (said_of_since h (.live l1 l2 h1 h2) m (List.mem_of_mem_filter hm))
  rw [Sse.C163_complete (st.turns s) hok hone, turns_taken h s, h3, List.map_map]
  rfl

/-- **C180** (privacy). Every event that a browser dispatches is a message that was said, and that the filters of its subscriber
accept. If it is the announcement of a finished run, then the browser is an administrator's (of the site, the problem, the contest
or the problemset) or that of the user who submitted it. -/
theorem C180_private (w : World σ) (st : State σ) (h : Reach w st) (hlines : ∀ m, Said st m → OneLine m.text) (s : σ)
    (bytes : Bytes) (hr : Received st s bytes) (e : Sse.Spec.Event) (he : e ∈ events bytes) :
    ∃ m, Said st m ∧ e = plain m.text ∧ (w.who s).accepts m.about = true ∧
      ∀ (run : Publish.Finished) (db : Publish.Db) (a : Publish.Announcement) (row : Publish.Row) (user : Filter.Text)
        (delay time : Float.F64) (filters : Filter.Text) (v : Filter.Validated),
        Publish.broadcastRun run db = some (m.about, a) → db run.id = some row → row.submitter = some (user, delay, time) →
        user ≠ [] → Filter.newSubscriber filters (some v) = .ok (w.who s) → [] ∉ v.contestAdmin → 0 ∉ v.problemsetAdmin →
        v.admin = true ∨ v.user = user ∨ run.problem ∈ v.problemAdmin ∨ (∃ c ∈ v.contestAdmin, run.contest = some c) ∨
          ∃ p ∈ v.problemsetAdmin, run.problemset = some p := by
  obtain ⟨ms, h1, h2⟩ := C180_stream w st h hlines s bytes hr
  obtain ⟨m, hm, rfl⟩ := List.mem_map.1 (h2.subset he)
  obtain ⟨hm1, hm2⟩ := List.mem_filter.1 hm
  refine ⟨m, said_of_since h h1 m hm1, rfl, hm2, ?_⟩
  intro run db a row user delay time filters v hb hrow hsub huser hnew hc hp
  exact Publish.C98_private run db m.about a row user delay time hb hrow hsub huser filters v (w.who s) hnew hc hp hm2

/-- **C180** The updates of the grader have no line ends, so as long as only the grader speaks, no more is needed. -/
theorem C180_updates (w : World σ) (st : State σ) (h : Reach w st)
    (hsaid : ∀ m, Said st m → ∃ u, m.text = Sse.updateText u) (s : σ) (bytes : Bytes) (hr : Received st s bytes) :
    ∃ ms, Since w s st.core.log ms ∧
      events bytes <+: (ms.filter fun m => (w.who s).accepts m.about).map fun m => plain m.text :=
  C180_stream w st h (fun m hm => by obtain ⟨u, hu⟩ := hsaid m hm; rw [hu]; exact Sse.C163_update u) s bytes hr

/-! ## Example -/

/-- The execution of some actions. -/
def run (w : World σ) (st : State σ) : List (Act σ) → Option (State σ)
  | [] => some st
  | a :: as => (step w st a).bind fun st' => run w st' as

theorem reach_run {w : World σ} : ∀ (as : List (Act σ)) {st st' : State σ}, Reach w st → run w st as = some st' → Reach w st'
  | [], _, _, h, hr => by injection hr with hr; subst hr; exact h
  | a :: as, _, _, h, hr => by
    obtain ⟨x, hx, hy⟩ := Option.bind_eq_some_iff.1 hr
    exact reach_run as (.step h hx) hy

/-- Subscriber 0 is an administrator who listens to everything, subscriber 1 the user `u` who listens to their own events. -/
def demo : World (Fin 2) where
  who s := if s = 0 then ⟨['a'], true, [], [], [], [.allEvents]⟩ else ⟨['u'], false, [], [], [], [.user ['u']]⟩
  ws _ := false
  channelLength := 2

/-- Of two messages, the second concerns `u`; the administrator's connection breaks in its second message. -/
def demoActs : List (Act (Fin 2)) :=
  [.other (.connect 0), .other .takeSubscribe, .other (.connect 1), .other .takeSubscribe,
   .other (.broadcast ⟨{}, [0x61]⟩), .other (.takeMessage [0, 1]), .other .next, .other .next, .other .next,
   .ping 1 none, .send 0 none,
   .other (.broadcast ⟨{ user := ['u'] }, [0x62]⟩), .other (.takeMessage [0, 1]), .other .next, .other .next, .other .next,
   .send 0 (some 3), .send 1 none, .other (.disconnect 0)]

-- the administrator sees one message, the user the other
example : (run demo {} demoActs).map (fun st => (events (Sse.written (st.turns 0)), events (Sse.written (st.turns 1)),
      st.core.accepted.map (·.text))) =
    some ([plain [0x61]], [plain [0x62]], [[0x61], [0x62]]) := by decide +kernel

-- the hypotheses of the theorems hold of it
example : ∃ st, Reach demo st ∧ (∀ m, Said st m → OneLine m.text) ∧ Received st 0 (Sse.written (st.turns 0)) ∧
    1 ∈ st.core.registered ∧ st.core.pc = .idle ∧ st.core.buffer 1 = [] ∧ Sse.Succeeded (st.turns 1) ∧
    plain [0x61] ∈ events (Sse.written (st.turns 0)) := by
  have hrun : (run demo {} demoActs).map (fun st => (st.core.registered == [1, 0]) &&
      (match st.core.pc with | .idle => true | _ => false) && ((st.core.buffer 1).map (·.text) == []) &&
      (st.turns 0 == [.message [0x61] none, .message [0x62] (some 3)]) &&
      (st.turns 1 == [.ping none, .message [0x62] none]) && (st.core.accepted.map (·.text) == [[0x61], [0x62]])) =
      some true := by decide +kernel
  obtain ⟨st, h1, h2⟩ := Option.map_eq_some_iff.1 hrun
  simp only [Bool.and_eq_true, beq_iff_eq] at h2
  obtain ⟨⟨⟨⟨⟨e1, e2⟩, e3⟩, e4⟩, e5⟩, e6⟩ := h2
  refine ⟨st, reach_run _ .init h1, ?_, List.prefix_rfl, by rw [e1]; simp, ?_, List.map_eq_nil_iff.1 e3, ?_, ?_⟩
  · intro m hm
    have : m.text ∈ st.core.accepted.map (·.text) := List.mem_map_of_mem hm
    rw [e6] at this
    intro b hb
    simp only [List.mem_cons, List.not_mem_nil, or_false] at this
    rcases this with h | h <;> rw [h, List.mem_singleton] at hb <;> subst hb <;> decide
  · split at e2
    · assumption
    · cases e2
  · rw [e5]; intro t ht
    simp only [List.mem_cons, List.not_mem_nil, or_false] at ht
    rcases ht with rfl | rfl
    · exact .inr rfl
    · exact .inl ⟨_, rfl⟩
  · rw [e4]; decide +kernel

end Quark.Live
