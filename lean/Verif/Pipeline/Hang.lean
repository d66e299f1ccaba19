import Verif.Pipeline.Props

/-!
# C120: what happens when the frontend does not answer
-/

namespace Quark.Pipeline

/-- The processed runs that did not need the scoreboard loop: not announced, refused, or not of a contest. -/
def free (l : List (Run × Outcome)) : Nat := (l.filter fun p => p.2 ≠ .announced ∨ p.1.board = none).length

theorem ended_length (l : List (Run × Outcome)) : l.length = free l + (boards l).length := by
  induction l with
  | nil => rfl
  | cons p l ih =>
    unfold free boards at ih ⊢
    rw [List.filter_cons, List.filterMap_cons, List.length_cons, ih]
    by_cases h1 : p.2 = .announced
    · rcases h2 : p.1.board with _ | c
      · simp [h1]; omega
      · simp [h1]; omega
    · simp [h1]; omega

theorem fromGrader_length (l : List (Bool × String)) : (fromGrader l).length ≤ l.length :=
  List.length_filterMap_le _ _

theorem asking_step {s t : State} {a : Act} {c : String} (hl : s.loop = .asking c) (ha : a ≠ .reply)
    (hs : step s a = some t) : t.loop = .asking c ∧ t.received = s.received := by
  cases a with
  | close r => obtain rfl := Option.some.inj hs; exact ⟨hl, rfl⟩
  | send i =>
    simp only [step] at hs
    split at hs
    · cases hs
    split at hs
    · obtain rfl := Option.some.inj hs; exact ⟨hl, rfl⟩
    · cases hs
  | take =>
    simp only [step] at hs
    split at hs
    · obtain rfl := Option.some.inj hs; exact ⟨hl, rfl⟩
    · cases hs
  | pass =>
    simp only [step] at hs
    split at hs
    · split at hs
      · obtain rfl := Option.some.inj hs; exact ⟨hl, rfl⟩
      · cases hs
    · cases hs
  | start =>
    simp only [step] at hs
    split at hs
    · obtain rfl := Option.some.inj hs; exact ⟨hl, rfl⟩
    · cases hs
  | skip =>
    simp only [step] at hs
    split at hs
    · split at hs
      · obtain rfl := Option.some.inj hs; exact ⟨hl, rfl⟩
      · cases hs
    · cases hs
  | accept =>
    simp only [step] at hs
    split at hs
    · split at hs
      · cases hs
      · obtain rfl := Option.some.inj hs
        unfold handle
        split
        · split <;> exact ⟨hl, rfl⟩
        · exact ⟨hl, rfl⟩
    · cases hs
  | refuse =>
    simp only [step] at hs
    split at hs
    · split at hs
      · cases hs
      · obtain rfl := Option.some.inj hs; exact ⟨hl, rfl⟩
    · cases hs
  | put =>
    simp only [step] at hs
    split at hs
    · split at hs
      · obtain rfl := Option.some.inj hs; exact ⟨hl, rfl⟩
      · cases hs
    · cases hs
  | other c =>
    simp only [step] at hs
    split at hs
    · cases hs
    · obtain rfl := Option.some.inj hs; exact ⟨hl, rfl⟩
  | putOther i =>
    simp only [step] at hs
    split at hs
    · cases hs
    split at hs
    · obtain rfl := Option.some.inj hs; exact ⟨hl, rfl⟩
    · cases hs
  | recv => simp only [step, hl] at hs; cases hs
  | expire c => simp only [step, hl] at hs; cases hs
  | reply => exact absurd rfl ha

theorem asking_exec {as : List Act} {s t : State} {c : String} (hl : s.loop = .asking c) (ha : .reply ∉ as)
    (he : exec s as = some t) : t.loop = .asking c ∧ t.received = s.received := by
  induction as generalizing s with
  | nil => obtain rfl := Option.some.inj he; exact ⟨hl, rfl⟩
  | cons a as ih =>
    simp only [exec] at he
    split at he
    · cases he
    · rename_i u hu
      rw [List.mem_cons, not_or] at ha
      obtain ⟨h1, h2⟩ := asking_step hl (fun h => ha.1 h.symm) hu
      obtain ⟨h3, h4⟩ := ih h1 ha.2 he
      exact ⟨h3, h4.trans h2⟩

/-- C120: while the frontend does not answer a request for a scoreboard, the number of runs whose `Close` returns is at
most five more than the number of runs that are processed without needing the scoreboard loop (not announced, refused
by the broadcaster, or not of a contest). -/
theorem C120_bound_partial {as₀ as : List Act} {s t : State} {c : String} (h₀ : exec {} as₀ = some s)
    (hl : s.loop = .asking c) (ha : .reply ∉ as) (h : exec s as = some t) :
    t.sent.length + free s.ended ≤ s.sent.length + free t.ended + 5 := by
  have is := inv_of_exec h₀
  have it := is.exec h
  obtain ⟨-, hr⟩ := asking_exec hl ha h
  have e1 := ended_length s.ended
  have e2 := ended_length t.ended
  have b1 : (boards s.ended).length = (fromGrader s.received).length + (fromGrader s.chan).length := by
    rw [is.boards, fromGrader_append, List.length_append]
  have b2 : (boards t.ended).length = (fromGrader s.received).length + (fromGrader t.chan).length := by
    rw [it.boards, fromGrader_append, List.length_append, hr]
  have l1 := fromGrader_length t.chan
  have l2 := it.chan
  have n1 := congrArg List.length is.sent
  have n2 := congrArg List.length it.sent
  simp only [List.length_append, List.length_map] at n1 n2
  have hp : t.post.run.length ≤ 1 := by cases t.post <;> simp [Post.run]
  have hw : t.worker.toList.length ≤ 1 := by cases t.worker <;> simp
  have := it.finished
  have := it.listener
  omega

/-- Everything is full. -/
structure Blocked (s : State) : Prop where
  finished : s.finished.length = 1
  worker : s.worker.isSome
  listener : s.listener.length = 1
  post : ∃ r c, s.post = .waiting r c
  chan : s.chan.length = 1
  loop : ∃ c, s.loop = .asking c

theorem Blocked.step {s t : State} {a : Act} (h : Blocked s) (ha : a ≠ .reply) (hs : step s a = some t) :
    Blocked t ∧ s.closing <+: t.closing ∧ t.sent = s.sent := by
  obtain ⟨h1, h2, h3, ⟨r, c, h4⟩, h5, ⟨c', h6⟩⟩ := h
  cases a with
  | close r' =>
    obtain rfl := Option.some.inj hs
    exact ⟨⟨h1, h2, h3, ⟨r, c, h4⟩, h5, ⟨c', h6⟩⟩, List.prefix_append _ _, rfl⟩
  | send i =>
    simp only [Pipeline.step] at hs
    split at hs
    · cases hs
    rw [if_neg (by omega)] at hs
    cases hs
  | take =>
    obtain ⟨w, hw⟩ := Option.isSome_iff_exists.mp h2
    simp only [Pipeline.step, hw] at hs
    cases hs
  | pass =>
    simp only [Pipeline.step] at hs
    split at hs
    · rw [if_neg (by omega)] at hs
      cases hs
    · cases hs
  | start => simp only [Pipeline.step, h4] at hs; cases hs
  | skip => simp only [Pipeline.step, h4] at hs; cases hs
  | accept => simp only [Pipeline.step, h4] at hs; cases hs
  | refuse => simp only [Pipeline.step, h4] at hs; cases hs
  | put =>
    simp only [Pipeline.step, h4] at hs
    rw [if_neg (by omega)] at hs
    cases hs
  | other c =>
    simp only [Pipeline.step] at hs
    split at hs
    · cases hs
    · obtain rfl := Option.some.inj hs
      exact ⟨⟨h1, h2, h3, ⟨r, _, h4⟩, h5, ⟨c', h6⟩⟩, List.prefix_refl _, rfl⟩
  | putOther i =>
    simp only [Pipeline.step] at hs
    split at hs
    · cases hs
    rw [if_neg (by omega)] at hs
    cases hs
  | recv => simp only [Pipeline.step, h6] at hs; cases hs
  | expire c => simp only [Pipeline.step, h6] at hs; cases hs
  | reply => exact absurd rfl ha

theorem Blocked.exec {as : List Act} {s t : State} (h : Blocked s) (ha : .reply ∉ as) (he : exec s as = some t) :
    s.closing <+: t.closing ∧ t.sent = s.sent := by
  induction as generalizing s with
  | nil => obtain rfl := Option.some.inj he; exact ⟨List.prefix_refl _, rfl⟩
  | cons a as ih =>
    simp only [Pipeline.exec] at he
    split at he
    · cases he
    · rename_i u hu
      rw [List.mem_cons, not_or] at ha
      obtain ⟨h1, h2, h3⟩ := h.step (fun h => ha.1 h.symm) hu
      obtain ⟨h4, h5⟩ := ih h1 ha.2 he
      exact ⟨h2.trans h4, h5.trans h3⟩

/-- Runs of one contest. -/
def contestRun (n : Nat) : Run := { id := n, contest := some "c" }

/-- A run gets from `Close` to the place it is to stay at. -/
def fill : List Act :=
  [.close (contestRun 0), .send 0, .take, .pass, .start, .accept, .put, .recv,
   .close (contestRun 1), .send 0, .take, .pass, .start, .accept, .put,
   .close (contestRun 2), .send 0, .take, .pass, .start, .accept,
   .close (contestRun 3), .send 0, .take, .pass,
   .close (contestRun 4), .send 0, .take,
   .close (contestRun 5), .send 0]

/-- Six runs of a contest with the frontend not answering the first request. -/
def full : State where
  finished := [contestRun 5]
  worker := some (contestRun 4)
  listener := [contestRun 3]
  post := .waiting (contestRun 2) "c"
  chan := [(true, "c")]
  loop := .asking "c"
  windows := ["c"]
  called := (List.range 6).map contestRun
  sent := (List.range 6).map contestRun
  ended := [(contestRun 0, .announced), (contestRun 1, .announced)]
  received := [(true, "c")]
  asked := ["c"]

theorem exec_append {as bs : List Act} {s t : State} (h : exec s as = some t) : exec s (as ++ bs) = exec t bs := by
  induction as generalizing s with
  | nil => obtain rfl := Option.some.inj h; rfl
  | cons a as ih =>
    simp only [exec, List.cons_append] at h ⊢
    split at h
    · cases h
    · exact ih h

theorem exec_fill : exec {} fill = some full := by decide +kernel

theorem exec_closes (l : List Run) (s : State) :
    exec s (l.map .close) = some { s with closing := s.closing ++ l, called := s.called ++ l } := by
  induction l generalizing s with
  | nil => simp [exec]
  | cons r l ih =>
    simp only [List.map_cons, exec, step]
    rw [ih]
    simp

/-- C120: the full claim, that a run's `Close` (and so the answer to the runner that sent its result) does not depend on
the frontend, is false: after six runs of a contest, any number of further runs can be waiting, and as long as the
frontend has not answered the request for the scoreboard, nothing that can happen lets any of them go on. -/
theorem C120_frontend_stops_grader (n : Nat) :
    ∃ as s, exec {} as = some s ∧ s.closing.length = n ∧
      ∀ as' t, .reply ∉ as' → exec s as' = some t → s.closing <+: t.closing ∧ t.sent = s.sent := by
  let l := (List.range n).map fun i => contestRun (i + 6)
  refine ⟨fill ++ l.map .close, { full with closing := full.closing ++ l, called := full.called ++ l }, ?_, ?_, ?_⟩
  · rw [exec_append exec_fill, exec_closes]
  · show (([] : List Run) ++ l).length = n
    simp [l]
  · intro as' t ha he
    exact Blocked.exec ⟨rfl, rfl, rfl, ⟨_, _, rfl⟩, rfl, ⟨_, rfl⟩⟩ ha he

/-- The bound of `C120_bound_partial` is attained: five more runs were closed after the request was sent, and none was
processed without needing the scoreboard loop. -/
theorem C120_bound_attained : ∃ as₀ as s t, exec {} as₀ = some s ∧ s.loop = .asking "c" ∧ .reply ∉ as ∧
    exec s as = some t ∧ free s.ended = 0 ∧ free t.ended = 0 ∧ t.sent.length = s.sent.length + 5 := by
  refine ⟨fill.take 8, fill.drop 8, ?_⟩
  refine ⟨{ loop := .asking "c", windows := ["c"], called := [contestRun 0], sent := [contestRun 0],
            ended := [(contestRun 0, .announced)], received := [(true, "c")], asked := ["c"] }, full, ?_⟩
  decide +kernel

/-! ### When requests end, everything goes on -/

/-- Nothing is on the way. -/
def Settled (s : State) : Prop :=
  s.closing = [] ∧ s.finished = [] ∧ s.worker = none ∧ s.listener = [] ∧ s.post = .idle ∧ s.others = [] ∧ s.chan = [] ∧
  s.loop = .idle

/-- The steps that happen without a new run, message or the end of a window: those of the programs, and requests ending
in one way or another. -/
def Act.due : Act → Bool
  | .close _ => false
  | .other _ => false
  | .expire _ => false
  | _ => true

/-- The steps apart from new runs and messages. -/
def Act.inner : Act → Bool
  | .close _ => false
  | .other _ => false
  | _ => true

/-- C120: if requests end, nothing waits for ever: unless all callers of `Close` and handlers have returned, some step
is possible. -/
theorem C120_progress_partial (s : State) (h : ¬ Settled s) : ∃ a t, a.due = true ∧ step s a = some t := by
  cases hl : s.loop with
  | asking c => exact ⟨.reply, { s with loop := .idle }, rfl, by simp only [step, hl]⟩
  | idle =>
    cases hc : s.chan with
    | cons p rest =>
      obtain ⟨b, c⟩ := p
      by_cases hw : s.windows.contains c = true
      · exact ⟨.recv, _, rfl, by simp only [step, hl, hc]; rw [if_pos hw]⟩
      · exact ⟨.recv, _, rfl, by simp only [step, hl, hc]; rw [if_neg hw]⟩
    | nil =>
      have hch : s.chan.length < 1 := by rw [hc]; exact Nat.zero_lt_one
      cases hp : s.post with
      | waiting r c => exact ⟨.put, _, rfl, by simp only [step, hp]; rw [if_pos hch]⟩
      | busy r =>
        by_cases hq : r.quiet = true
        · exact ⟨.skip, _, rfl, by simp only [step, hp]; rw [if_pos hq]⟩
        · exact ⟨.accept, _, rfl, by simp only [step, hp]; rw [if_neg hq]⟩
      | idle =>
        cases ho : s.others with
        | cons c rest =>
          exact ⟨.putOther 0, _, rfl, by
            simp only [step, ho, List.getElem?_cons_zero]; rw [if_pos hch]⟩
        | nil =>
          cases hli : s.listener with
          | cons r rest => exact ⟨.start, _, rfl, by simp only [step, hp, hli]; rfl⟩
          | nil =>
            have hll : s.listener.length < 1 := by rw [hli]; exact Nat.zero_lt_one
            cases hw : s.worker with
            | some r => exact ⟨.pass, _, rfl, by simp only [step, hw]; rw [if_pos hll]⟩
            | none =>
              cases hf : s.finished with
              | cons r rest => exact ⟨.take, _, rfl, by simp only [step, hw, hf]; rfl⟩
              | nil =>
                have hfl : s.finished.length < 1 := by rw [hf]; exact Nat.zero_lt_one
                cases hcl : s.closing with
                | cons r rest =>
                  exact ⟨.send 0, _, rfl, by
                    simp only [step, hcl, List.getElem?_cons_zero]; rw [if_pos hfl]⟩
                | nil => exact absurd ⟨hcl, hf, hw, hli, hp, ho, hc, hl⟩ h

def Post.weight : Post → Nat
  | .idle => 0
  | .busy _ => 6
  | .waiting _ _ => 5

def Loop.weight : Loop → Nat
  | .idle => 0
  | .asking _ => 1

/-- How many steps there can still be. -/
def State.weight (s : State) : Nat :=
  10 * s.closing.length + 9 * s.finished.length + 8 * s.worker.toList.length + 7 * s.listener.length + s.post.weight +
  5 * s.others.length + 4 * s.chan.length + 2 * s.windows.length + s.loop.weight

theorem filter_ne_length {l : List String} {c : String} (h : c ∈ l) : (l.filter (· ≠ c)).length + 1 ≤ l.length := by
  have : (l.filter (· ≠ c)).length < l.length := by
    rw [List.length_filter_lt_length_iff_exists]
    exact ⟨c, h, by simp⟩
  omega

theorem weight_step {s t : State} {a : Act} (ha : a.inner = true) (hs : step s a = some t) : t.weight < s.weight := by
  cases a with
  | close r => cases ha
  | other c => cases ha
  | send i =>
    simp only [step] at hs
    split at hs
    · cases hs
    rename_i r hr
    obtain ⟨hi, -⟩ := List.getElem?_eq_some_iff.mp hr
    split at hs
    · obtain rfl := Option.some.inj hs
      simp only [State.weight, List.length_eraseIdx_of_lt hi, List.length_append, List.length_singleton]
      omega
    · cases hs
  | take =>
    simp only [step] at hs
    split at hs
    · rename_i r rest hw hf
      obtain rfl := Option.some.inj hs
      simp only [State.weight, hw, hf, List.length_cons, Option.toList, List.length_nil]
      omega
    · cases hs
  | pass =>
    simp only [step] at hs
    split at hs
    · rename_i r hw
      split at hs
      · obtain rfl := Option.some.inj hs
        simp only [State.weight, hw, Option.toList, List.length_append, List.length_cons, List.length_nil]
        omega
      · cases hs
    · cases hs
  | start =>
    simp only [step] at hs
    split at hs
    · rename_i r rest hp hf
      obtain rfl := Option.some.inj hs
      simp only [State.weight, hp, hf, List.length_cons, Post.weight]
      omega
    · cases hs
  | skip =>
    simp only [step] at hs
    split at hs
    · rename_i r hp
      split at hs
      · obtain rfl := Option.some.inj hs
        simp only [State.weight, hp, Post.weight]
        omega
      · cases hs
    · cases hs
  | refuse =>
    simp only [step] at hs
    split at hs
    · rename_i r hp
      split at hs
      · cases hs
      · obtain rfl := Option.some.inj hs
        simp only [State.weight, hp, Post.weight]
        omega
    · cases hs
  | accept =>
    simp only [step] at hs
    split at hs
    · rename_i r hp
      split at hs
      · cases hs
      · obtain rfl := Option.some.inj hs
        unfold handle
        split
        · split
          · simp only [State.weight, hp, Post.weight]; omega
          · simp only [State.weight, hp, Post.weight]; omega
        · simp only [State.weight, hp, Post.weight]; omega
    · cases hs
  | put =>
    simp only [step] at hs
    split at hs
    · rename_i r c hp
      split at hs
      · obtain rfl := Option.some.inj hs
        simp only [State.weight, hp, Post.weight, List.length_append, List.length_singleton]
        omega
      · cases hs
    · cases hs
  | putOther i =>
    simp only [step] at hs
    split at hs
    · cases hs
    rename_i r hr
    obtain ⟨hi, -⟩ := List.getElem?_eq_some_iff.mp hr
    split at hs
    · obtain rfl := Option.some.inj hs
      simp only [State.weight, List.length_eraseIdx_of_lt hi, List.length_append, List.length_singleton]
      omega
    · cases hs
  | recv =>
    simp only [step] at hs
    split at hs
    · rename_i b c rest hl hc
      split at hs
      · obtain rfl := Option.some.inj hs
        simp only [State.weight, hl, hc, List.length_cons]
        omega
      · obtain rfl := Option.some.inj hs
        simp only [State.weight, hl, hc, List.length_cons, List.length_append, List.length_nil, Loop.weight]
        omega
    · cases hs
  | expire c =>
    simp only [step] at hs
    split at hs
    · rename_i hl
      split at hs
      · rename_i hw
        have := filter_ne_length (l := s.windows) (c := c) (by simpa using hw)
        split at hs
        all_goals
          obtain rfl := Option.some.inj hs
          simp only [State.weight, hl, Loop.weight]
          omega
      · cases hs
    · cases hs
  | reply =>
    simp only [step] at hs
    split at hs
    · rename_i c hl
      obtain rfl := Option.some.inj hs
      simp only [State.weight, hl, Loop.weight]
      omega
    · cases hs

/-- C120: and it takes a bounded number of steps: at most ten for every run and message on the way and two for every
open window. -/
theorem C120_bounded_partial {as : List Act} {s t : State} (ha : ∀ a ∈ as, a.inner = true) (h : exec s as = some t) :
    as.length + t.weight ≤ s.weight := by
  induction as generalizing s with
  | nil => obtain rfl := Option.some.inj h; simp
  | cons a as ih =>
    simp only [exec] at h
    split at h
    · cases h
    · rename_i u hu
      have h1 := weight_step (ha a (List.mem_cons_self ..)) hu
      have h2 := ih (fun b hb => ha b (List.mem_cons_of_mem _ hb)) h
      rw [List.length_cons]
      omega

theorem called_due {s t : State} {a : Act} (ha : a.due = true) (hs : step s a = some t) : t.called = s.called := by
  cases a with
  | close r => cases ha
  | other c => cases ha
  | expire c => cases ha
  | accept =>
    simp only [step] at hs
    split at hs
    · split at hs
      · cases hs
      · obtain rfl := Option.some.inj hs
        unfold handle
        split
        · split <;> rfl
        · rfl
    · cases hs
  | recv =>
    simp only [step] at hs
    split at hs
    · split at hs
      all_goals obtain rfl := Option.some.inj hs; rfl
    · cases hs
  | _ =>
    simp only [step] at hs
    repeat' split at hs
    all_goals first
      | cases hs; done
      | (obtain rfl := Option.some.inj hs; rfl)

/-- The two together, from any moment: all waiting callers of `Close` can and will be done, with no new runs, and then
every closed run was processed. -/
theorem C120_drains_partial {as₀ : List Act} {s : State} (h₀ : exec {} as₀ = some s) :
    ∃ as t, (∀ a ∈ as, a.due = true) ∧ exec s as = some t ∧ Settled t ∧ s.called.Perm (t.ended.map (·.1)) := by
  have key : ∀ n (s : State), s.weight ≤ n → Inv s →
      ∃ as t, (∀ a ∈ as, a.due = true) ∧ exec s as = some t ∧ Settled t ∧ t.called = s.called := by
    intro n
    induction n with
    | zero =>
      intro s hw hi
      by_cases hs : Settled s
      · exact ⟨[], s, by simp, rfl, hs, rfl⟩
      · obtain ⟨a, t, ha, ht⟩ := C120_progress_partial s hs
        have := weight_step (by cases a <;> first | rfl | cases ha) ht
        omega
    | succ n ih =>
      intro s hw hi
      by_cases hs : Settled s
      · exact ⟨[], s, by simp, rfl, hs, rfl⟩
      · obtain ⟨a, t, ha, ht⟩ := C120_progress_partial s hs
        have := weight_step (by cases a <;> first | rfl | cases ha) ht
        obtain ⟨as, u, h1, h2, h3, h4⟩ := ih t (by omega) (hi.step ht)
        refine ⟨a :: as, u, ?_, ?_, h3, ?_⟩
        · intro b hb
          rcases List.mem_cons.mp hb with rfl | hb
          · exact ha
          · exact h1 b hb
        · simp only [exec, ht]; exact h2
        · rw [h4]
          exact called_due ha ht
  have hi := inv_of_exec h₀
  obtain ⟨as, t, h1, h2, h3, h4⟩ := key _ s (Nat.le_refl _) hi
  refine ⟨as, t, h1, h2, h3, ?_⟩
  obtain ⟨c1, c2, c3, c4, c5, -⟩ := h3
  have it := hi.exec h2
  have := it.called
  rw [it.sent, c1, c2, c3, c4, c5, h4] at this
  simpa [Post.run] using this

/-! ### Concrete cases -/

/-- The hypotheses of `C119_refreshed` are met: with a run that is in the channel when its contest's window is open. -/
example : full.asked.count "c" = 1 ∧ (∃ b, (b, "c") ∈ full.chan) ∧
    (contestRun 1, Outcome.announced) ∈ full.ended := by decide +kernel

/-- After the answer the second refresh is asked for at the end of the window. -/
example : (exec full [.reply, .recv, .expire "c"]).map (·.asked) = some ["c", "c"] := by decide +kernel

/-- Runs that are not of a contest, quiet runs and refused ones do not reach the loop. -/
example : (exec {} [.close { id := 1, contest := none }, .send 0, .take, .pass, .start, .accept,
      .close { id := 2, contest := some "", quiet := false }, .send 0, .take, .pass, .start, .accept,
      .close { id := 3, contest := some "c", quiet := true }, .send 0, .take, .pass, .start, .skip,
      .close { id := 4, contest := some "c" }, .send 0, .take, .pass, .start, .refuse,
      .close { id := 5, contest := some "c" }, .send 0, .take, .pass, .start, .accept, .put, .other "d", .recv, .reply,
      .putOther 0, .recv]).map (fun s => (s.received, s.ended.map (·.2), s.asked)) =
    some ([(true, "c"), (false, "d")], [.announced, .announced, .quiet, .refused, .announced], ["c", "d"]) := by
  decide +kernel

end Quark.Pipeline
