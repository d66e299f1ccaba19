import Verif.Stop.Requests

/-!
# The queue of CI requests (C161) and what stopping does to it (C162)
-/

namespace Quark.Stop

/-! ## Specification -/

/-- Every run that was started was finished before anything else happened. -/
def Complete : List Event → Prop
  | [] => True
  | .start a :: .finish b :: rest => a = b ∧ Complete rest
  | _ => False

theorem complete_serial : ∀ {l : List Event}, Complete l → Serial l
  | [], _ => trivial
  | [.start _], h => by simp [Complete] at h
  | .finish _ :: _, h => by simp [Complete] at h
  | .start _ :: .start _ :: _, h => by simp [Complete] at h
  | .start a :: .finish b :: rest, h => by
    simp only [Complete] at h
    exact ⟨h.1, complete_serial h.2⟩

theorem complete_serial_start : ∀ {l : List Event} {id : Nat}, Complete l → Serial (l ++ [.start id])
  | [], _, _ => trivial
  | [.start _], _, h => by simp [Complete] at h
  | .finish _ :: _, _, h => by simp [Complete] at h
  | .start _ :: .start _ :: _, _, h => by simp [Complete] at h
  | .start a :: .finish b :: rest, id, h => by
    simp only [Complete] at h
    exact ⟨h.1, complete_serial_start h.2⟩

theorem complete_finish : ∀ {l : List Event} {id : Nat}, Complete l → Complete (l ++ [.start id] ++ [.finish id])
  | [], _, _ => ⟨rfl, trivial⟩
  | [.start _], _, h => by simp [Complete] at h
  | .finish _ :: _, _, h => by simp [Complete] at h
  | .start _ :: .start _ :: _, _, h => by simp [Complete] at h
  | .start a :: .finish b :: rest, id, h => by
    simp only [Complete] at h
    exact ⟨h.1, complete_finish h.2⟩

theorem starts_append (l₁ l₂ : List Event) : starts (l₁ ++ l₂) = starts l₁ ++ starts l₂ := by
  induction l₁ with
  | nil => rfl
  | cons e l ih => cases e <;> simp [starts, ih]

theorem complete_finished : ∀ {l : List Event} {id : Nat}, Complete l → id ∈ starts l → .finish id ∈ l
  | [], _, _, h => by simp [starts] at h
  | [.start _], _, h, _ => by simp [Complete] at h
  | .finish _ :: _, _, h, _ => by simp [Complete] at h
  | .start _ :: .start _ :: _, _, h, _ => by simp [Complete] at h
  | .start a :: .finish b :: rest, id, h, hid => by
    simp only [Complete] at h
    simp only [starts, List.mem_cons] at hid
    rcases hid with rfl | hid
    · simp [h.1]
    · simp [complete_finished h.2 hid]

/-! ## Invariant -/

structure QInv (s : State) : Prop where
  order : s.sent = starts s.log ++ s.queue ++ s.blocked
  once : s.sent.Nodup
  room : s.queue.length ≤ channelSize
  full : s.blocked ≠ [] → s.queue.length = channelSize
  waits : ∀ id ∈ s.blocked, (id, ciServer) ∈ s.inflight
  log : match s.worker with
    | .busy id => ∃ l, s.log = l ++ [.start id] ∧ Complete l
    | _ => Complete s.log

theorem qinv_init : QInv {} where
  order := rfl
  once := List.nodup_nil
  room := by decide
  full := by simp
  waits := by simp
  log := trivial

theorem qinv_step {parts : List Kind} {s s' : State} {a : Act} (hP : QInv s) (h : step parts s a = some s') : QInv s' := by
  obtain ⟨hx, hc⟩ := step_cases h
  rcases hc with ⟨-, ⟨h1, rfl⟩ | ⟨-, rfl⟩⟩ | ⟨-, m, hm, hlt, rfl⟩ | ⟨-, hm, rfl⟩ | ⟨-, ⟨k, c, hm⟩, rfl⟩ |
    ⟨-, k, hm, ⟨hk, rfl⟩ | ⟨hk, rfl⟩⟩ | ⟨-, k, kd, hm, hk, hret, ⟨hl, rfl⟩ | ⟨hl, rfl⟩⟩ |
    ⟨-, hm, rfl⟩ | ⟨k, -, hk, hlis, rfl⟩ | ⟨id, -, h0, hin, hns, ⟨hq, rfl⟩ | ⟨hq, rfl⟩⟩ | ⟨id, -, hrun, hb, rfl⟩ |
    ⟨-, hw, h0, hph, rfl⟩ |
    ⟨-, hw, id, rest, hq, ⟨hb, rfl⟩ | ⟨b, bs, hb, rfl⟩⟩ | ⟨-, id, hw, rfl⟩ | ⟨-, hw, hst, rfl⟩
  · exact { hP with }
  · exact hP
  · exact { hP with }
  · exact { hP with }
  · exact { hP with }
  · exact { hP with }
  · exact { hP with }
  · exact { hP with }
  · exact { hP with }
  · exact { hP with }
  · -- accept
    exact { hP with waits := fun i hi => List.mem_append_left _ (hP.waits i hi) }
  · -- send, room
    have hnb : s.blocked = [] := by
      by_contra hcon
      have := hP.full hcon
      omega
    exact { hP with
            order := by
              have := hP.order
              simp only [hnb, List.append_nil] at this ⊢
              rw [this]; simp
            once := by
              rw [List.nodup_append]
              refine ⟨hP.once, by simp, ?_⟩
              intro x hx' y hy hxy
              simp only [List.mem_cons, List.not_mem_nil, or_false] at hy
              subst hy; subst hxy
              exact hns hx'
            room := by simp only [List.length_append, List.length_singleton]; exact hq
            full := by intro hcon; exact absurd hnb hcon }
  · -- send, full
    exact { hP with
            order := by
              have := hP.order
              dsimp only
              rw [this]; simp
            once := by
              rw [List.nodup_append]
              refine ⟨hP.once, by simp, ?_⟩
              intro x hx' y hy hxy
              simp only [List.mem_cons, List.not_mem_nil, or_false] at hy
              subst hy; subst hxy
              exact hns hx'
            full := by
              intro _
              have := hP.room
              exact Nat.le_antisymm this (Nat.le_of_not_lt hq)
            waits := by
              intro i hi
              simp only [List.mem_append, List.mem_cons, List.not_mem_nil, or_false] at hi
              rcases hi with hi | rfl
              · exact hP.waits i hi
              · exact hin }
  · -- answer
    exact { hP with
            waits := by
              intro i hi
              have hne : i ≠ id := by rintro rfl; exact hb hi
              simp [hP.waits i hi, hne] }
  · -- scanned
    have hl := hP.log
    rw [hw] at hl
    exact { hP with log := hl }
  · -- take
    have hl := hP.log
    rw [hw] at hl
    exact { hP with
            order := by
              have := hP.order
              rw [hq, hb] at this
              simp only [starts_append, starts, hb]
              rw [this]; simp
            room := by
              have := hP.room
              rw [hq] at this
              simp only [List.length_cons] at this
              dsimp only
              omega
            full := by intro hcon; exact absurd hb hcon
            log := ⟨s.log, rfl, hl⟩ }
  · have hl := hP.log
    rw [hw] at hl
    have hfull := hP.full (by simp [hb])
    exact { hP with
            order := by
              have := hP.order
              rw [hq, hb] at this
              simp only [starts_append, starts]
              rw [this]; simp
            room := by
              rw [hq] at hfull
              simp only [List.length_cons] at hfull
              simp [hfull]
            full := by
              intro _
              rw [hq] at hfull
              simpa using hfull
            waits := by
              intro i hi
              exact hP.waits i (by simp only [hb, List.mem_cons]; exact Or.inr hi)
            log := ⟨s.log, rfl, hl⟩ }
  · -- finish
    have hl := hP.log
    rw [hw] at hl
    obtain ⟨l, hl, hcl⟩ := hl
    exact { hP with
            order := by
              have := hP.order
              simp only [starts_append, starts, List.append_nil]
              exact this
            log := by
              simp only [hl]
              exact complete_finish hcl }
  · have hl := hP.log
    rw [hw] at hl
    exact { hP with log := hl }

theorem qinv_reach {parts : List Kind} {s : State} (h : Reachable parts s) : QInv s :=
  reachable_invariant qinv_init (fun _ _ _ => qinv_step) h

/-! ## C161 -/

/-- CI requests are run one at a time, each at most once, in the order in which they were handed over; at most 128 wait in the
channel, and only when 128 do does a handler wait. -/
theorem ci_in_order {parts : List Kind} {s : State} (h : Reachable parts s) :
    Serial s.log ∧ starts s.log <+: s.sent ∧ (starts s.log).Nodup ∧ s.queue.length ≤ 128 ∧
      (s.blocked ≠ [] → s.queue.length = 128) := by
  have hq := qinv_reach h
  refine ⟨?_, ?_, ?_, hq.room, hq.full⟩
  · have hl := hq.log
    cases hw : s.worker with
    | busy id =>
      rw [hw] at hl
      obtain ⟨l, hl, hc⟩ := hl
      rw [hl]
      exact complete_serial_start hc
    | scanning => rw [hw] at hl; exact complete_serial hl
    | idle => rw [hw] at hl; exact complete_serial hl
    | stopped => rw [hw] at hl; exact complete_serial hl
  · rw [hq.order, List.append_assoc]
    exact List.prefix_append _ _
  · have := hq.once
    rw [hq.order, List.append_assoc] at this
    exact (List.nodup_append.1 this).1

/-- The client of a CI request that was handed over has its answer only when the request is in the channel or was taken from
it. -/
theorem ci_answered {parts : List Kind} (hne : parts ≠ []) {s : State} (h : Reachable parts s) {id : Nat}
    (hs : id ∈ s.sent) (ha : id ∈ s.answered) : id ∈ s.queue ∨ id ∈ starts s.log := by
  have hq := qinv_reach h
  rw [hq.order] at hs
  simp only [List.mem_append] at hs
  rcases hs with (hs | hs) | hs
  · exact Or.inr hs
  · exact Or.inl hs
  · have := (inv_reach hne h).answered id ha
    exact absurd (hq.waits id hs) (this.2 _)

/-- While 128 requests wait, the client of the next one is kept waiting for its first answer. -/
theorem ci_kept_waiting {parts : List Kind} {s : State} {id : Nat} (hb : id ∈ s.blocked) :
    step parts s (.answer id) = none := by
  by_cases he : s.phase = .exited
  · simp [step, he]
  · simp [step, he, hb]

/-- As long as nobody tells the grader to stop, the worker alone gets to every request handed over, and finishes it. -/
theorem ci_progress {parts : List Kind} {s : State} (h : Reachable parts s) (hw : s.phase = .waiting)
    (hci : parts[0]? = some .ci) (hne : s.worker ≠ .stopped) {id : Nat} (hid : id ∈ s.sent) :
    ∃ acts s', (∀ a ∈ acts, workerAct a = true) ∧ run parts s acts = some s' ∧ s'.phase = .waiting ∧ .finish id ∈ s'.log := by
  -- first get the worker to the `select`
  have toIdle : ∃ acts s', (∀ a ∈ acts, workerAct a = true) ∧ run parts s acts = some s' ∧ s'.phase = .waiting ∧
      s'.worker = .idle ∧ s'.sent = s.sent := by
    cases hwk : s.worker with
    | scanning =>
      exact ⟨[.scanned], { s with worker := .idle }, by simp [workerAct], by simp [run, step, hw, hwk, hci], hw, rfl, rfl⟩
    | idle => exact ⟨[], s, by simp, rfl, hw, hwk, rfl⟩
    | busy i =>
      exact ⟨[.finish], { s with worker := .idle, log := s.log ++ [.finish i] }, by simp [workerAct],
        by simp [run, step, hw, hwk], hw, rfl, rfl⟩
    | stopped => exact absurd hwk hne
  -- then go through what is waiting
  have drain : ∀ n (s : State), Reachable parts s → s.queue.length + s.blocked.length = n → s.phase = .waiting →
      s.worker = .idle → ∃ acts s', (∀ a ∈ acts, workerAct a = true) ∧ run parts s acts = some s' ∧ s'.phase = .waiting ∧
        s'.worker = .idle ∧ s'.sent = s.sent ∧ s'.queue = [] ∧ s'.blocked = [] := by
    intro n
    induction n with
    | zero =>
      intro s _ hn hp hwk
      refine ⟨[], s, by simp, rfl, hp, hwk, rfl, ?_, ?_⟩
      · exact List.length_eq_zero_iff.1 (by omega)
      · exact List.length_eq_zero_iff.1 (by omega)
    | succ n ih =>
      intro s hr hn hp hwk
      cases hq : s.queue with
      | nil =>
        have hb : s.blocked ≠ [] := by
          intro hb; simp [hq, hb] at hn
        have := (qinv_reach hr).full hb
        rw [hq] at this
        simp [channelSize] at this
      | cons i rest =>
        have two : ∃ s₂, run parts s [.take, .finish] = some s₂ ∧ s₂.phase = .waiting ∧ s₂.worker = .idle ∧ s₂.sent = s.sent ∧
            s₂.queue.length + s₂.blocked.length = n := by
          cases hb : s.blocked with
          | nil =>
            refine ⟨{ s with worker := .idle, queue := rest, log := s.log ++ [.start i] ++ [.finish i] }, ?_, hp, rfl, rfl, ?_⟩
            · simp [run, step, hp, hwk, hq, hb]
            · simp only [hq, hb, List.length_cons, List.length_nil] at hn ⊢
              omega
          | cons b bs =>
            refine ⟨{ s with worker := .idle, queue := rest ++ [b], blocked := bs,
                             log := s.log ++ [.start i] ++ [.finish i] }, ?_, hp, rfl, rfl, ?_⟩
            · simp [run, step, hp, hwk, hq, hb]
            · simp only [hq, hb, List.length_cons, List.length_append, List.length_nil] at hn ⊢
              omega
        obtain ⟨s₂, hr2, hp2, hw2, hs2, hn2⟩ := two
        have hreach : Reachable parts s₂ := by
          obtain ⟨pre, hpre⟩ := hr
          exact ⟨pre ++ [.take, .finish], by rw [run_append, hpre]; exact hr2⟩
        obtain ⟨acts, s', ha, hrun, hp', hw', hs', hq', hb'⟩ := ih s₂ hreach hn2 hp2 hw2
        refine ⟨[.take, .finish] ++ acts, s', ?_, ?_, hp', hw', by rw [hs', hs2], hq', hb'⟩
        · intro a hm
          simp only [List.mem_append, List.mem_cons, List.not_mem_nil, or_false] at hm
          rcases hm with (rfl | rfl) | hm
          · rfl
          · rfl
          · exact ha a hm
        · rw [run_append, hr2]; exact hrun
  obtain ⟨acts₁, s₁, ha1, hr1, hp1, hw1, hs1⟩ := toIdle
  have hreach1 : Reachable parts s₁ := by
    obtain ⟨pre, hpre⟩ := h
    exact ⟨pre ++ acts₁, by rw [run_append, hpre]; exact hr1⟩
  obtain ⟨acts₂, s₂, ha2, hr2, hp2, hw2, hs2, hq2, hb2⟩ := drain _ s₁ hreach1 rfl hp1 hw1
  have hreach2 : Reachable parts s₂ := by
    obtain ⟨pre, hpre⟩ := hreach1
    exact ⟨pre ++ acts₂, by rw [run_append, hpre]; exact hr2⟩
  refine ⟨acts₁ ++ acts₂, s₂, ?_, ?_, hp2, ?_⟩
  · intro a hm
    rcases List.mem_append.1 hm with hm | hm
    · exact ha1 a hm
    · exact ha2 a hm
  · rw [run_append, hr1]; exact hr2
  · have hQ := qinv_reach hreach2
    have hl := hQ.log
    rw [hw2] at hl
    refine complete_finished hl ?_
    have := hQ.order
    rw [hs2, hs1, hq2, hb2, List.append_nil, List.append_nil] at this
    rw [← this]; exact hid

/-- Two commits, the second handed over while the first is being run. -/
example : ∃ s, run graderParts {} [.startPart, .startPart, .startPart, .startPart, .ready, .accept 1, .accept 1, .send 1, .answer 1,
    .scanned, .take, .send 0, .answer 0, .finish, .take] = some s ∧ s.phase = .waiting ∧ s.sent = [1, 0] ∧
    s.log = [.start 1, .finish 1, .start 0] ∧ s.worker ≠ .stopped :=
  ⟨_, rfl, by decide +kernel⟩

/-! ## C162 -/

/-- The claim: a CI request whose client was told that it waits is run before the grader ends. It is false. -/
def AcceptedIsRun : Prop :=
  ∀ s : State, Reachable graderParts s → s.phase = .exited → s.expired = false → ∀ id ∈ s.sent, id ∈ s.answered → id ∈ starts s.log

/-- The worker is told to stop while a request waits in the channel: it may stop right away. -/
def lostRequest : List Act :=
  [.startPart, .startPart, .scanned, .startPart, .startPart, .ready, .accept 1, .send 0, .answer 0, .signal, .call, .quit, .ret,
    .call, .ret, .call, .ret, .call, .ret, .join]

theorem accepted_is_run_false : ¬ AcceptedIsRun := by
  intro h
  exact absurd (h ((run graderParts {} lostRequest).getD {}) ⟨lostRequest, by decide +kernel⟩ (by decide +kernel)
    (by decide +kernel) 0 (by decide +kernel) (by decide +kernel)) (by decide +kernel)

/-- The grader does not interrupt a CI run unless the deadline passes: what was started is finished when it ends. -/
theorem ci_run_not_interrupted_partial {s : State} (h : Reachable graderParts s) (hx : s.phase = .exited)
    (hd : s.expired = false) : Complete s.log ∧ ∀ id ∈ starts s.log, .finish id ∈ s.log := by
  have hstop := (inv_reach (by decide) h).done hd 0 (by simp [past, hx]) rfl
  have hl := (qinv_reach h).log
  rw [hstop] at hl
  exact ⟨hl, fun id hid => complete_finished hl hid⟩

/-- The worker stops only after the grader was told to, and then starts and finishes nothing. -/
theorem ci_stopped_for_good {parts : List Kind} (hne : parts ≠ []) {s s' : State} {acts : List Act} (h : Reachable parts s)
    (hw : s.worker = .stopped) (hr : run parts s acts = some s') :
    s.ciStop = true ∧ s'.worker = .stopped ∧ s'.log = s.log := by
  refine ⟨(inv_reach hne h).stop hw, ?_⟩
  refine run_invariant (P := fun t => t.worker = .stopped ∧ t.log = s.log) ?_ acts s s' ⟨hw, rfl⟩ hr
  rintro t a t' ⟨hw, hl⟩ hs
  obtain ⟨-, hc⟩ := step_cases hs
  rcases hc with ⟨-, ⟨h1, rfl⟩ | ⟨-, rfl⟩⟩ | ⟨-, m, hm, hlt, rfl⟩ | ⟨-, hm, rfl⟩ | ⟨-, ⟨k, c, hm⟩, rfl⟩ |
    ⟨-, k, hm, ⟨hk, rfl⟩ | ⟨hk, rfl⟩⟩ | ⟨-, k, kd, hm, hk, hret, ⟨hl', rfl⟩ | ⟨hl', rfl⟩⟩ |
    ⟨-, hm, rfl⟩ | ⟨k, -, hk, hlis, rfl⟩ | ⟨id, -, h0, hin, hns, ⟨hq, rfl⟩ | ⟨hq, rfl⟩⟩ | ⟨id, -, hrun, hb, rfl⟩ |
    ⟨-, hw', -⟩ |
    ⟨-, hw', -⟩ | ⟨-, id, hw', rfl⟩ | ⟨-, hw', hst, rfl⟩
  all_goals first
    | exact ⟨hw, hl⟩
    | (rw [hw] at hw'; cases hw')

/-- A handler that waits for room when the worker stops waits for ever: its client gets no answer, and the grader ends only
by the deadline. -/
theorem ci_blocked_for_good {s s' : State} {acts : List Act} {id : Nat} (h : Reachable graderParts s)
    (hw : s.worker = .stopped) (hb : id ∈ s.blocked) (hr : run graderParts s acts = some s') :
    id ∈ s'.blocked ∧ id ∉ s'.answered ∧ (s'.phase = .exited → s'.expired = true) := by
  have hP : s'.worker = .stopped ∧ id ∈ s'.blocked := by
    refine run_invariant (P := fun t => t.worker = .stopped ∧ id ∈ t.blocked) ?_ acts s s' ⟨hw, hb⟩ hr
    rintro t a t' ⟨hw, hl⟩ hs
    obtain ⟨-, hc⟩ := step_cases hs
    rcases hc with ⟨-, ⟨h1, rfl⟩ | ⟨-, rfl⟩⟩ | ⟨-, m, hm, hlt, rfl⟩ | ⟨-, hm, rfl⟩ | ⟨-, ⟨k, c, hm⟩, rfl⟩ |
      ⟨-, k, hm, ⟨hk, rfl⟩ | ⟨hk, rfl⟩⟩ | ⟨-, k, kd, hm, hk, hret, ⟨hl', rfl⟩ | ⟨hl', rfl⟩⟩ |
      ⟨-, hm, rfl⟩ | ⟨k, -, hk, hlis, rfl⟩ | ⟨id', -, h0, hin, hns, ⟨hq, rfl⟩ | ⟨hq, rfl⟩⟩ | ⟨id', -, hrun, hb', rfl⟩ |
      ⟨-, hw', -⟩ |
      ⟨-, hw', -⟩ | ⟨-, id', hw', rfl⟩ | ⟨-, hw', hst, rfl⟩
    all_goals first
      | exact ⟨hw, hl⟩
      | exact ⟨hw, List.mem_append_left _ hl⟩
      | (rw [hw] at hw'; cases hw')
  have hreach : Reachable graderParts s' := by
    obtain ⟨pre, hpre⟩ := h
    exact ⟨pre ++ acts, by rw [run_append, hpre]; exact hr⟩
  have hin := (qinv_reach hreach).waits id hP.2
  refine ⟨hP.2, ?_, ?_⟩
  · intro ha
    exact ((inv_reach (by decide) hreach).answered id ha).2 _ hin
  · intro hx
    cases he : s'.expired with
    | true => rfl
    | false =>
      have := (no_request_dropped_partial (by decide) hreach hx he).1
      rw [this] at hin
      simp at hin

/-- 129 requests handed over while the worker is reloading, and the signal. -/
def crowd : List Act :=
  [.startPart, .startPart, .startPart, .startPart, .ready] ++ List.replicate 129 (.accept 1) ++
    (List.range 129).map .send ++ [.signal, .call, .scanned, .quit]

example : ∃ s, run graderParts {} crowd = some s ∧ s.worker = .stopped ∧ 128 ∈ s.blocked :=
  ⟨(run graderParts {} crowd).getD {}, by decide +kernel⟩

end Quark.Stop
