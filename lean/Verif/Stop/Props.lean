import Verif.Stop.Model
import Mathlib.Tactic.SplitIfs

/-!
# Signals, requests in flight, and the CI queue (C159-C162)
-/

namespace Quark.Stop

/-! ## Specification -/

/-- Runs that follow one another: each is finished before the next is started, and the last may be going on. -/
def Serial : List Event → Prop
  | [] => True
  | [.start _] => True
  | .start a :: .finish b :: rest => a = b ∧ Serial rest
  | _ => False

/-- The runs started, in order. -/
def starts : List Event → List Nat
  | [] => []
  | .start a :: rest => a :: starts rest
  | .finish _ :: rest => starts rest

/-- What `main` itself does. -/
def mainAct : Act → Bool
  | .call => true
  | .ret => true
  | .join => true
  | _ => false

/-- What the CI worker itself does. -/
def workerAct : Act → Bool
  | .scanned => true
  | .take => true
  | .finish => true
  | .quit => true
  | _ => false

/-! ## Invariants -/

theorem run_append {parts : List Kind} {s : State} {l₁ l₂ : List Act} :
    run parts s (l₁ ++ l₂) = (run parts s l₁).bind (run parts · l₂) := by
  induction l₁ generalizing s with
  | nil => rfl
  | cons a l ih =>
    simp only [List.cons_append, run]
    cases step parts s a with
    | none => rfl
    | some s' => exact ih

theorem reachable_step {parts : List Kind} {s s' : State} {a : Act} (h : Reachable parts s)
    (hs : step parts s a = some s') : Reachable parts s' := by
  obtain ⟨acts, h⟩ := h
  refine ⟨acts ++ [a], ?_⟩
  rw [run_append, h]
  simp [run, hs]

/-- Every state of an execution satisfies what the first one does and each step preserves. -/
theorem run_invariant {parts : List Kind} {P : State → Prop}
    (hstep : ∀ s a s', P s → step parts s a = some s' → P s') :
    ∀ (acts : List Act) (s s' : State), P s → run parts s acts = some s' → P s' := by
  intro acts
  induction acts with
  | nil => intro s s' hP h; cases h; exact hP
  | cons a l ih =>
    intro s s' hP h
    simp only [run] at h
    cases ha : step parts s a with
    | none => rw [ha] at h; simp at h
    | some t => rw [ha] at h; exact ih t s' (hstep s a t hP ha) h

theorem reachable_invariant {parts : List Kind} {P : State → Prop} (h0 : P {})
    (hstep : ∀ s a s', P s → step parts s a = some s' → P s') {s : State} (h : Reachable parts s) : P s := by
  obtain ⟨acts, h⟩ := h
  exact run_invariant hstep acts _ _ h0 h

/-- All the ways a step can go, with what it changes. -/
theorem step_cases {parts : List Kind} {s s' : State} {a : Act} (h : step parts s a = some s') :
    s.phase ≠ .exited ∧
    ((a = .signal ∧ ((s.phase = .waiting ∧ s' = { s with phase := .stopping 0 false }) ∨ (s.phase ≠ .waiting ∧ s' = s))) ∨
     (a = .startPart ∧ ∃ m, s.phase = .starting m ∧ m < parts.length ∧ s' = { s with phase := .starting (m + 1) }) ∨
     (a = .ready ∧ s.phase = .starting parts.length ∧ s' = { s with phase := .waiting }) ∨
     (a = .expire ∧ (∃ k c, s.phase = .stopping k c) ∧ s' = { s with expired := true }) ∨
     (a = .call ∧ ∃ k, s.phase = .stopping k false ∧
        ((parts[k]? = some .ci ∧ s' = { s with phase := .stopping k true, ciStop := true }) ∨
         (parts[k]? = some .server ∧ s' = { s with phase := .stopping k true }))) ∨
     (a = .ret ∧ ∃ k kind, s.phase = .stopping k true ∧ parts[k]? = some kind ∧ mayReturn s k kind = true ∧
        ((k + 1 < parts.length ∧ s' = { s with phase := .stopping (k + 1) false }) ∨
         (¬ k + 1 < parts.length ∧ s' = { s with phase := .joining }))) ∨
     (a = .join ∧ s.phase = .joining ∧ s' = { s with phase := .exited }) ∨
     (∃ k, a = .accept k ∧ parts[k]? = some .server ∧ listening s k = true ∧
        s' = { s with next := s.next + 1, inflight := s.inflight ++ [(s.next, k)] }) ∨
     (∃ id, a = .send id ∧ parts[0]? = some .ci ∧ (id, ciServer) ∈ s.inflight ∧ id ∉ s.sent ∧
        ((s.queue.length < channelSize ∧ s' = { s with sent := s.sent ++ [id], queue := s.queue ++ [id] }) ∨
         (¬ s.queue.length < channelSize ∧ s' = { s with sent := s.sent ++ [id], blocked := s.blocked ++ [id] }))) ∨
     (∃ id, a = .answer id ∧ running s id = true ∧ id ∉ s.blocked ∧
        s' = { s with inflight := s.inflight.filter (fun p => p.1 ≠ id), answered := s.answered ++ [id] }) ∨
     (a = .scanned ∧ s.worker = .scanning ∧ parts[0]? = some .ci ∧ s.phase ≠ .starting 0 ∧ s' = { s with worker := .idle }) ∨
     (a = .take ∧ s.worker = .idle ∧ ∃ id rest, s.queue = id :: rest ∧
        ((s.blocked = [] ∧ s' = { s with worker := .busy id, queue := rest, log := s.log ++ [.start id] }) ∨
         (∃ b bs, s.blocked = b :: bs ∧
            s' = { s with worker := .busy id, queue := rest ++ [b], blocked := bs, log := s.log ++ [.start id] }))) ∨
     (a = .finish ∧ ∃ id, s.worker = .busy id ∧ s' = { s with worker := .idle, log := s.log ++ [.finish id] }) ∨
     (a = .quit ∧ s.worker = .idle ∧ s.ciStop = true ∧ s' = { s with worker := .stopped })) := by
  by_cases he : s.phase = .exited
  · simp [step, he] at h
  refine ⟨he, ?_⟩
  unfold step at h
  rw [if_neg he] at h
  cases a with
  | signal =>
    refine Or.inl ⟨rfl, ?_⟩
    cases hp : s.phase <;> simp only [hp] at h
    case waiting => cases h; exact Or.inl ⟨rfl, rfl⟩
    all_goals
      cases h
      exact Or.inr ⟨by simp, rfl⟩
  | startPart =>
    right; left
    cases hp : s.phase <;> simp only [hp, reduceCtorEq] at h
    case starting m =>
      split_ifs at h with hm
      cases h
      exact ⟨rfl, m, rfl, hm, rfl⟩
  | ready =>
    right; right; left
    cases hp : s.phase <;> simp only [hp, reduceCtorEq] at h
    case starting m =>
      split_ifs at h with hm
      cases h
      exact ⟨rfl, by rw [hm], rfl⟩
  | expire =>
    right; right; right; left
    cases hp : s.phase <;> simp only [hp, reduceCtorEq] at h
    case stopping k c =>
      cases h
      exact ⟨rfl, ⟨k, c, rfl⟩, rfl⟩
  | call =>
    right; right; right; right; left
    cases hp : s.phase <;> simp only [hp, reduceCtorEq] at h
    case stopping k c =>
      cases c with
      | true => simp at h
      | false =>
        cases hk : parts[k]? with
        | none => simp [hk] at h
        | some kind =>
          cases kind <;> simp only [hk] at h <;> cases h
          · exact ⟨rfl, k, rfl, Or.inl ⟨hk, rfl⟩⟩
          · exact ⟨rfl, k, rfl, Or.inr ⟨hk, rfl⟩⟩
  | ret =>
    right; right; right; right; right; left
    cases hp : s.phase <;> simp only [hp, reduceCtorEq] at h
    case stopping k c =>
      cases c with
      | false => simp at h
      | true =>
        cases hk : parts[k]? with
        | none => simp [hk] at h
        | some kind =>
          simp only [hk] at h
          split_ifs at h with h1 h2
          · cases h; exact ⟨rfl, k, kind, rfl, hk, h1, Or.inl ⟨h2, rfl⟩⟩
          · cases h; exact ⟨rfl, k, kind, rfl, hk, h1, Or.inr ⟨h2, rfl⟩⟩
  | join =>
    right; right; right; right; right; right; left
    cases hp : s.phase <;> simp only [hp, reduceCtorEq] at h
    cases h
    exact ⟨rfl, rfl, rfl⟩
  | accept k =>
    right; right; right; right; right; right; right; left
    dsimp only at h
    split_ifs at h with h1
    cases h
    exact ⟨k, rfl, h1.1, h1.2, rfl⟩
  | send id =>
    right; right; right; right; right; right; right; right; left
    dsimp only at h
    split_ifs at h with h1 h2
    · cases h; exact ⟨id, rfl, h1.1, h1.2.1, h1.2.2, Or.inl ⟨h2, rfl⟩⟩
    · cases h; exact ⟨id, rfl, h1.1, h1.2.1, h1.2.2, Or.inr ⟨h2, rfl⟩⟩
  | answer id =>
    right; right; right; right; right; right; right; right; right; left
    dsimp only at h
    split_ifs at h with h1
    cases h
    exact ⟨id, rfl, h1.1, h1.2, rfl⟩
  | scanned =>
    right; right; right; right; right; right; right; right; right; right; left
    dsimp only at h
    split_ifs at h with h1
    cases h
    exact ⟨rfl, h1.1, h1.2.1, h1.2.2, rfl⟩
  | take =>
    right; right; right; right; right; right; right; right; right; right; right; left
    dsimp only at h
    cases hw : s.worker <;> simp only [hw, reduceCtorEq] at h
    cases hq : s.queue with
    | nil => simp [hq] at h
    | cons id rest =>
      simp only [hq] at h
      cases hb : s.blocked with
      | nil => simp only [hb] at h; cases h; exact ⟨rfl, rfl, id, rest, rfl, Or.inl ⟨rfl, rfl⟩⟩
      | cons b bs => simp only [hb] at h; cases h; exact ⟨rfl, rfl, id, rest, rfl, Or.inr ⟨b, bs, rfl, rfl⟩⟩
  | finish =>
    right; right; right; right; right; right; right; right; right; right; right; right; left
    dsimp only at h
    cases hw : s.worker <;> simp only [hw, reduceCtorEq] at h
    case busy id => cases h; exact ⟨rfl, id, rfl, rfl⟩
  | quit =>
    right; right; right; right; right; right; right; right; right; right; right; right; right
    dsimp only at h
    split_ifs at h with h1
    cases h
    exact ⟨rfl, h1.1, h1.2, rfl⟩

/-! ## C159: signals -/

/-- A state in which `main` waits for a signal only changes phase by a signal. -/
theorem waits_forever {parts : List Kind} {acts : List Act} {s s' : State} (hw : s.phase = .waiting)
    (hno : .signal ∉ acts) (h : run parts s acts = some s') : s'.phase = .waiting := by
  induction acts generalizing s with
  | nil => cases h; exact hw
  | cons a l ih =>
    simp only [run] at h
    cases ha : step parts s a with
    | none => rw [ha] at h; simp at h
    | some t =>
      rw [ha] at h
      simp only [List.mem_cons, not_or] at hno
      refine ih ?_ hno.2 h
      obtain ⟨-, hc⟩ := step_cases ha
      rcases hc with ⟨rfl, -⟩ | ⟨-, m, hm, -⟩ | ⟨-, hm, -⟩ | ⟨-, ⟨k, c, hm⟩, -⟩ | ⟨-, k, hm, -⟩ | ⟨-, k, kd, hm, -⟩ |
        ⟨-, hm, -⟩ | ⟨k, -, -, -, rfl⟩ | ⟨id, -, -, -, -, h1 | h1⟩ | ⟨id, -, -, -, rfl⟩ | ⟨-, -, -, -, rfl⟩ |
        ⟨-, -, id, rest, -, h1 | ⟨b, bs, -, h1⟩⟩ | ⟨-, id, -, rfl⟩ | ⟨-, -, -, rfl⟩
      · exact absurd rfl hno.1
      all_goals first
        | (rw [hw] at hm; cases hm)
        | exact hw
        | (rw [h1.2]; exact hw)
        | (rw [h1]; exact hw)

/-- A signal that comes when `main` waits for it is acted upon, whatever the state is otherwise. -/
theorem ready_signal {parts : List Kind} {s : State} (hw : s.phase = .waiting) :
    step parts s .signal = some { s with phase := .stopping 0 false } := by
  simp [step, hw]

/-- A signal that comes at any other time changes nothing. -/
theorem early_signal {parts : List Kind} {s s' : State} (hw : s.phase ≠ .waiting)
    (h : step parts s .signal = some s') : s' = s := by
  obtain ⟨-, hc⟩ := step_cases h
  rcases hc with ⟨-, h | h⟩ | ⟨h, -⟩ | ⟨h, -⟩ | ⟨h, -⟩ | ⟨h, -⟩ | ⟨h, -⟩ | ⟨h, -⟩ | ⟨k, h, -⟩ | ⟨k, h, -⟩ | ⟨k, h, -⟩ |
    ⟨h, -⟩ | ⟨h, -⟩ | ⟨h, -⟩ | ⟨h, -⟩
  · exact absurd h.1 hw
  · exact h.2
  all_goals cases h

/-- The claim for all moments: after a signal, the daemon does not go back to waiting. It is false. -/
def SignalStops (parts : List Kind) : Prop :=
  ∀ s s' : State, Reachable parts s → step parts s .signal = some s' →
    ∀ acts s'', .signal ∉ acts → run parts s' acts = some s'' → s''.phase ≠ .waiting

/-- A signal that comes while the daemon starts is lost, and the daemon runs on. -/
theorem signal_stops_false : ¬ SignalStops graderParts := by
  intro h
  exact h {} {} ⟨[], rfl⟩ rfl [.startPart, .startPart, .startPart, .startPart, .ready] { phase := .waiting } (by decide)
    (by decide +kernel) rfl

/-- The same for the broadcaster. -/
theorem signal_stops_false_broadcaster : ¬ SignalStops broadcasterParts := by
  intro h
  exact h {} {} ⟨[], rfl⟩ rfl [.startPart, .startPart, .ready] { phase := .waiting } (by decide) (by decide +kernel) rfl

/-- How far `main` is from the end. -/
def distance (parts : List Kind) : Phase → Nat
  | .starting _ => 0
  | .waiting => 0
  | .stopping k called => 2 * (parts.length - k) + (if called then 0 else 1)
  | .joining => 1
  | .exited => 0

/-- The part that is being stopped exists. -/
def PartOk (parts : List Kind) (s : State) : Prop :=
  match s.phase with
  | .stopping k _ => k < parts.length
  | _ => True

theorem partOk_step {parts : List Kind} (hne : parts ≠ []) {s s' : State} {a : Act} (hP : PartOk parts s)
    (h : step parts s a = some s') : PartOk parts s' := by
  have hpos : 0 < parts.length := List.length_pos_iff.2 hne
  obtain ⟨-, hc⟩ := step_cases h
  rcases hc with ⟨-, h1 | h1⟩ | ⟨-, m, hm, -, rfl⟩ | ⟨-, hm, rfl⟩ | ⟨-, ⟨k, c, hm⟩, rfl⟩ | ⟨-, k, hm, h1 | h1⟩ |
    ⟨-, k, kd, hm, -, -, h1 | h1⟩ |
    ⟨-, hm, rfl⟩ | ⟨k, -, -, -, rfl⟩ | ⟨id, -, -, -, -, h1 | h1⟩ | ⟨id, -, -, -, rfl⟩ | ⟨-, -, -, -, rfl⟩ |
    ⟨-, -, id, rest, -, h1 | ⟨b, bs, -, h1⟩⟩ | ⟨-, id, -, rfl⟩ | ⟨-, -, -, rfl⟩
  all_goals first
    | exact hP
    | trivial
    | (obtain ⟨h1, rfl⟩ := h1; first | exact hP | trivial | exact hpos | exact h1 | (simp only [PartOk, hm] at hP; exact hP))

/-- Once the deadline has passed, `main` alone gets to the end in few steps, whatever the requests and the CI worker do
or do not do. -/
theorem exits_after_deadline_partial {parts : List Kind} (hne : parts ≠ []) {s : State} (h : Reachable parts s)
    (hd : s.expired = true) (hp : (∃ k c, s.phase = .stopping k c) ∨ s.phase = .joining) :
    ∃ acts s', (∀ a ∈ acts, mainAct a = true) ∧ acts.length ≤ 2 * parts.length + 1 ∧
      run parts s acts = some s' ∧ s'.phase = .exited ∧ s'.inflight = s.inflight ∧ s'.worker = s.worker := by
  have hok : PartOk parts s := reachable_invariant (P := PartOk parts) trivial (fun _ _ _ => partOk_step hne) h
  clear h
  have main : ∀ n (s : State), distance parts s.phase = n → s.expired = true → PartOk parts s →
      ((∃ k c, s.phase = .stopping k c) ∨ s.phase = .joining) →
      ∃ acts s', (∀ a ∈ acts, mainAct a = true) ∧ acts.length ≤ n ∧
        run parts s acts = some s' ∧ s'.phase = .exited ∧ s'.inflight = s.inflight ∧ s'.worker = s.worker := by
    intro n
    induction n using Nat.strongRecOn with
    | ind n ih =>
      intro s hn hd hok hp
      rcases hp with ⟨k, c, hp⟩ | hp
      · have hk : k < parts.length := by simpa [PartOk, hp] using hok
        cases c with
        | false =>
          have hs : ∃ s₁, step parts s .call = some s₁ ∧ s₁.phase = .stopping k true ∧ s₁.expired = true ∧
              s₁.inflight = s.inflight ∧ s₁.worker = s.worker := by
            cases hkind : parts[k] with
            | ci => exact ⟨{ s with phase := .stopping k true, ciStop := true }, by simp [step, hp, hk, hkind], rfl, hd, rfl, rfl⟩
            | server => exact ⟨{ s with phase := .stopping k true }, by simp [step, hp, hk, hkind], rfl, hd, rfl, rfl⟩
          obtain ⟨s₁, h1, hp1, hd1, hi1, hw1⟩ := hs
          have hdist : distance parts s₁.phase < n := by
            rw [← hn, hp, hp1]; simp [distance]
          obtain ⟨acts, s', ha, hl, hr, hx, hi, hw⟩ :=
            ih _ hdist s₁ rfl hd1 (by simp [PartOk, hp1, hk]) (Or.inl ⟨k, true, hp1⟩)
          refine ⟨.call :: acts, s', ?_, ?_, ?_, hx, by rw [hi, hi1], by rw [hw, hw1]⟩
          · intro a hm
            rcases List.mem_cons.1 hm with rfl | hm
            · rfl
            · exact ha a hm
          · simp only [List.length_cons]; omega
          · simp [run, h1, hr]
        | true =>
          have hret : mayReturn s k parts[k] = true := by
            cases parts[k] <;> simp [mayReturn, hd]
          by_cases hlast : k + 1 < parts.length
          · have h1 : step parts s .ret = some { s with phase := .stopping (k + 1) false } := by
              simp [step, hp, hk, hret, hlast]
            have hdist : distance parts (.stopping (k + 1) false) < n := by
              rw [← hn, hp]; simp [distance]; omega
            obtain ⟨acts, s', ha, hl, hr, hx, hi, hw⟩ :=
              ih _ hdist { s with phase := .stopping (k + 1) false } rfl hd (by simpa [PartOk] using hlast)
                (Or.inl ⟨k + 1, false, rfl⟩)
            refine ⟨.ret :: acts, s', ?_, ?_, ?_, hx, hi, hw⟩
            · intro a hm
              rcases List.mem_cons.1 hm with rfl | hm
              · rfl
              · exact ha a hm
            · simp only [List.length_cons]; omega
            · simp [run, h1, hr]
          · have h1 : step parts s .ret = some { s with phase := .joining } := by
              simp [step, hp, hk, hret, hlast]
            have hdist : 1 < n := by rw [← hn, hp]; simp [distance]; omega
            refine ⟨[.ret, .join], { s with phase := .exited }, ?_, ?_, ?_, rfl, rfl, rfl⟩
            · intro a hm
              simp only [List.mem_cons, List.not_mem_nil, or_false] at hm
              rcases hm with rfl | rfl <;> rfl
            · exact hdist
            · simp only [run, h1, Option.bind_some]; simp [step]
      · refine ⟨[.join], { s with phase := .exited }, ?_, ?_, ?_, rfl, rfl, rfl⟩
        · intro a hm
          simp only [List.mem_cons, List.not_mem_nil, or_false] at hm
          subst hm; rfl
        · rw [← hn, hp]; simp [distance]
        · simp [run, step, hp]
  obtain ⟨acts, s', ha, hl, rest⟩ := main _ s rfl hd hok hp
  refine ⟨acts, s', ha, Nat.le_trans hl ?_, rest⟩
  have hpos : 0 < parts.length := List.length_pos_iff.2 hne
  rcases hp with ⟨k, c, hp⟩ | hp
  · rw [hp]; cases c <;> simp [distance] <;> omega
  · rw [hp]; simp [distance]

/-- After the deadline, nothing that others do keeps `main` from its next step. -/
theorem main_not_hindered {parts : List Kind} {s s' : State} {m a : Act} (hd : s.expired = true) (hm : mainAct m = true)
    (hen : (step parts s m).isSome) (ha : mainAct a = false) (h : step parts s a = some s') :
    s'.expired = true ∧ (step parts s' m).isSome := by
  have hphase : s'.phase = s.phase ∧ s'.expired = true := by
    obtain ⟨-, hc⟩ := step_cases h
    rcases hc with ⟨-, h1 | h1⟩ | ⟨-, m', hm', -, rfl⟩ | ⟨-, hm', rfl⟩ | ⟨-, ⟨k, c, hm'⟩, rfl⟩ | ⟨rfl, -⟩ | ⟨rfl, -⟩ |
      ⟨rfl, -⟩ | ⟨k, -, -, -, rfl⟩ | ⟨id, -, -, -, -, h1 | h1⟩ | ⟨id, -, -, -, rfl⟩ | ⟨-, -, -, -, rfl⟩ |
      ⟨-, -, id, rest, -, h1 | ⟨b, bs, -, h1⟩⟩ | ⟨-, id, -, rfl⟩ | ⟨-, -, -, rfl⟩
    · exfalso
      cases m <;> simp [mainAct] at hm <;> simp [step, h1.1] at hen
    · exact ⟨by rw [h1.2], by rw [h1.2]; exact hd⟩
    · exfalso
      cases m <;> simp [mainAct] at hm <;> simp [step, hm'] at hen
    · exfalso
      cases m <;> simp [mainAct] at hm <;> simp [step, hm'] at hen
    all_goals first
      | (simp [mainAct] at ha; done)
      | exact ⟨rfl, hd⟩
      | exact ⟨rfl, rfl⟩
      | (obtain ⟨-, rfl⟩ := h1; exact ⟨rfl, hd⟩)
  obtain ⟨hph, hex⟩ := hphase
  refine ⟨hex, ?_⟩
  obtain ⟨t, hen⟩ := Option.isSome_iff_exists.1 hen
  obtain ⟨hne, hc⟩ := step_cases hen
  cases m <;> simp [mainAct] at hm
  · -- call
    rcases hc with ⟨h, -⟩ | ⟨h, -⟩ | ⟨h, -⟩ | ⟨h, -⟩ | ⟨-, k, hp, h1⟩ | ⟨h, -⟩ | ⟨h, -⟩ | ⟨k, h, -⟩ | ⟨k, h, -⟩ | ⟨k, h, -⟩ |
      ⟨h, -⟩ | ⟨h, -⟩ | ⟨h, -⟩ | ⟨h, -⟩
    case inr.inr.inr.inr.inl =>
      rcases h1 with ⟨h1, -⟩ | ⟨h1, -⟩ <;> simp [step, hph, hp, h1]
    all_goals cases h
  · -- ret
    rcases hc with ⟨h, -⟩ | ⟨h, -⟩ | ⟨h, -⟩ | ⟨h, -⟩ | ⟨h, -⟩ | ⟨-, k, kind, hp, hk, -, h1⟩ | ⟨h, -⟩ | ⟨k, h, -⟩ | ⟨k, h, -⟩ |
      ⟨k, h, -⟩ | ⟨h, -⟩ | ⟨h, -⟩ | ⟨h, -⟩ | ⟨h, -⟩
    case inr.inr.inr.inr.inr.inl =>
      have hret : mayReturn s' k kind = true := by cases kind <;> simp [mayReturn, hex]
      rcases h1 with ⟨h1, -⟩ | ⟨h1, -⟩ <;> simp [step, hph, hp, hk, h1, hret]
    all_goals cases h
  · -- join
    rcases hc with ⟨h, -⟩ | ⟨h, -⟩ | ⟨h, -⟩ | ⟨h, -⟩ | ⟨h, -⟩ | ⟨h, -⟩ | ⟨-, hp, -⟩ | ⟨k, h, -⟩ | ⟨k, h, -⟩ | ⟨k, h, -⟩ |
      ⟨h, -⟩ | ⟨h, -⟩ | ⟨h, -⟩ | ⟨h, -⟩
    case inr.inr.inr.inr.inr.inr.inl => simp [step, hph, hp]
    all_goals cases h

/-! A grader whose runners' server has a request that never ends is stopped by the deadline alone. -/

/-- The grader in the middle of being stopped, with a long poll of a runner. -/
def polled : List Act :=
  [.startPart, .startPart, .scanned, .startPart, .startPart, .ready, .accept 2, .signal, .call, .quit, .ret, .call, .ret, .call]

example : ∃ s, run graderParts {} polled = some s ∧ s.phase = .stopping 2 true ∧ s.expired = false ∧
    step graderParts s .ret = none ∧ s.inflight = [(0, 2)] :=
  ⟨(run graderParts {} polled).getD {}, by decide +kernel⟩

example : ∃ s s', run graderParts {} polled = some s ∧ step graderParts s .expire = some s' ∧
    ∃ s'', run graderParts s' [.ret, .call, .ret, .join] = some s'' ∧ s''.phase = .exited ∧ s''.inflight = [(0, 2)] :=
  ⟨(run graderParts {} polled).getD {}, (run graderParts {} (polled ++ [.expire])).getD {}, by decide +kernel,
    by decide +kernel, (run graderParts {} (polled ++ [.expire, .ret, .call, .ret, .join])).getD {}, by decide +kernel⟩

end Quark.Stop
