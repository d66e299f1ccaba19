import Verif.Conversation.Props
import Verif.Literal.Props
import Mathlib.Tactic.IntervalCases

/-!
# The answer ends when the run is over, and a client that hangs up changes nothing (C156); the token (C157)
-/

namespace Quark.Conversation

section
variable {ι : Type} {R : Literal.Runtime} {T : Literal.Tools ι} {r : Request}

/-! ## Specification -/

/-- How many of the steps are the handler's. -/
def handlerSteps : List Act → Nat
  | [] => 0
  | .handler _ :: rest => handlerSteps rest + 1
  | _ :: rest => handlerSteps rest

/-- Nothing the handler does on the disk fails. -/
def NothingFails (acts : List Act) : Prop :=
  ∀ c, .handler c ∈ acts → c ≠ .fail ∧ c ≠ .failStay ∧ ∀ n, c ≠ .cut n

/-- The token works: the directory it stands for is there and known to the manager. -/
def Works (s : State) : Prop := s.kept = true ∧ s.dir.isSome

/-- C157: a token that was given out works once the answer has ended. -/
def TokensWork (R : Literal.Runtime) (T : Literal.Tools ι) : Prop :=
  ∀ r acts s t, from0 R T r acts = some s → Accepted s t → s.ended = true → Works s

/-! ## Proof -/

/-- How many steps the handler has left at most. -/
def rank : Pc → Nat
  | .start => 14
  | .input => 13
  | .naming => 12
  | .greet _ => 11
  | .enqueue => 10
  | .tell => 9
  | .choose => 8
  | .wait => 7
  | .send rest => 3 + rest.length
  | .save => 2
  | .commit => 1
  | .done => 0

theorem rank_handle {s s' : State} {c : Choice} (h : handle R T r s c = some s') : rank s'.pc < rank s.pc := by
  unfold handle at h
  cases hp : s.pc <;> rw [hp] at h <;> (try dsimp only at h)
  case start =>
    cases h
    unfold front
    (repeat' split) <;> simp [rank]
  case send l =>
    cases l with
    | nil => cases h; simp [rank]
    | cons f rest =>
      dsimp only at h
      split at h
      · cases h; simp [rank]
      · cases c <;> simp only [reduceCtorEq] at h <;> cases h <;> simp [rank, say]
  case done => cases h
  case choose => cases c <;> simp only [reduceCtorEq] at h <;> split at h <;> cases h <;> simp [rank, say]
  case wait => split at h <;> cases h; simp [rank, filenames]
  all_goals
    first
    | (cases h; simp [rank, say])
    | (cases c <;> simp only [reduceCtorEq] at h <;> cases h <;> simp [rank])

theorem pc_env {s s' : State} {a : Act} (h : step R T r s a = some s') (ha : ∀ c, a ≠ .handler c) : s'.pc = s.pc := by
  cases a <;> simp only [step] at h
  case handler c => exact absurd rfl (ha c)
  case pickUp => split at h <;> cases h; rfl
  case clear => split at h <;> cases h; rfl
  case upload => split at h <;> cases h; rfl
  case close => split at h <;> cases h; rfl
  case hangUp => cases h; rfl

theorem rank_run {s s' : State} {acts : List Act} (h : run R T r s acts = some s') :
    handlerSteps acts + rank s'.pc ≤ rank s.pc := by
  induction acts generalizing s with
  | nil => simp only [run] at h; cases h; simp [handlerSteps]
  | cons a as ih =>
    simp only [run] at h
    cases hs : step R T r s a with
    | none => rw [hs] at h; cases h
    | some s1 =>
      rw [hs] at h
      have h1 := ih h
      cases a with
      | handler c =>
        have := rank_handle (show handle R T r s c = some s1 from hs)
        simp only [handlerSteps]; omega
      | _ => rw [pc_env hs (by simp)] at h1; simpa [handlerSteps] using h1

theorem ready_pc {s : State} (hi : Inv s) (hr : s.ready = true) :
    s.pc = .tell ∨ s.pc = .choose ∨ s.pc = .wait ∨ (∃ l, s.pc = .send l) ∨ s.pc = .save ∨ s.pc = .commit ∨
      (s.pc = .done ∧ s.ended = true) := by
  have hq := hi.queued (hi.picked (hi.closed hr))
  have ha := hi.at_
  cases hp : s.pc <;> rw [hp] at ha <;> simp only [At] at ha
  case start => rw [ha.2.2.1] at hq; cases hq
  case input => rw [ha.2.2.1] at hq; cases hq
  case naming => rw [ha.2.2.1] at hq; cases hq
  case greet => rw [ha.2.2.1] at hq; cases hq
  case enqueue => rw [ha.2.2.1] at hq; cases hq
  case done =>
    rcases ha with ha | ha
    · rw [ha.1] at hq; cases hq
    · simp [ha.2.2.2.2.1]
  all_goals simp

theorem ready_step {s s' : State} {a : Act} (hi : Inv s) (h : step R T r s a = some s') (hr : s.ready = true) :
    s'.ready = true := by
  cases a <;> simp only [step] at h
  case pickUp => split at h <;> cases h; exact hr
  case clear => split at h <;> cases h; exact hr
  case upload => split at h <;> cases h; exact hr
  case close =>
    split at h
    · rename_i hc; exact absurd (hi.closed hr) hc.2
    · cases h
  case hangUp => cases h; exact hr
  case handler c =>
    unfold handle at h
    cases hp : s.pc <;> rw [hp] at h <;> (try dsimp only at h)
    case start => cases h; unfold front; (repeat' split) <;> exact hr
    case send l =>
      cases l with
      | nil => cases h; exact hr
      | cons f rest =>
        dsimp only at h
        split at h
        · cases h; exact hr
        · cases c <;> simp only [reduceCtorEq] at h <;> cases h <;> exact hr
    case done => cases h
    case choose => cases c <;> simp only [reduceCtorEq] at h <;> split at h <;> cases h <;> exact hr
    case wait => rw [if_pos hr] at h; cases h; exact hr
    all_goals
      first
      | (cases h; exact hr)
      | (cases c <;> simp only [reduceCtorEq] at h <;> cases h <;> exact hr)

theorem ready_run {s s' : State} {acts : List Act} (hi : Inv s) (h : run R T r s acts = some s') (hr : s.ready = true) :
    s'.ready = true := by
  induction acts generalizing s with
  | nil => simp only [run] at h; cases h; exact hr
  | cons a as ih =>
    simp only [run] at h
    cases hs : step R T r s a with
    | none => rw [hs] at h; cases h
    | some s1 => rw [hs] at h; exact ih (inv_step hi hs) h (ready_step hi hs hr)

/-- C156, the end: once the run is over the handler makes at most nine more steps, and is never stuck before it has ended
the answer. -/
theorem ends_soon {acts : List Act} {s : State} (h : from0 R T r acts = some s) (hr : s.ready = true) {more : List Act}
    {s' : State} (h' : run R T r s more = some s') :
    handlerSteps more ≤ 9 ∧ (s'.ended = true ∨ ∃ c s'', step R T r s' (.handler c) = some s'') := by
  have hi := inv_from h
  constructor
  · have h1 := rank_run h'
    have h2 : rank s.pc ≤ 9 := by
      have ha := hi.at_
      rcases ready_pc hi hr with hp | hp | hp | ⟨l, hp⟩ | hp | hp | ⟨hp, -⟩ <;> rw [hp] <;> (try simp [rank])
      rw [hp] at ha
      simp only [At] at ha
      obtain ⟨-, -, -, ⟨pre, e, -⟩, -⟩ := ha
      have := congrArg List.length e
      simp [filenames] at this
      omega
    omega
  · have hi' := inv_run hi h'
    have hr' := ready_run hi h' hr
    rcases ready_pc hi' hr' with hp | hp | hp | ⟨l, hp⟩ | hp | hp | ⟨-, he⟩
    · right; refine ⟨.ok, ?_⟩; simp only [step]; unfold handle; rw [hp]; exact ⟨_, rfl⟩
    · right; refine ⟨.over, ?_⟩; simp only [step]; unfold handle; rw [hp]; dsimp only; rw [if_pos hr']; exact ⟨_, rfl⟩
    · right; refine ⟨.ok, ?_⟩; simp only [step]; unfold handle; rw [hp]; dsimp only; rw [if_pos hr']; exact ⟨_, rfl⟩
    · right; refine ⟨.ok, ?_⟩; simp only [step]; unfold handle; rw [hp]
      cases l with
      | nil => exact ⟨_, rfl⟩
      | cons f rest => dsimp only; split <;> exact ⟨_, rfl⟩
    · right; refine ⟨.ok, ?_⟩; simp only [step]; unfold handle; rw [hp]; exact ⟨_, rfl⟩
    · right; refine ⟨.ok, ?_⟩; simp only [step]; unfold handle; rw [hp]; exact ⟨_, rfl⟩
    · exact Or.inl he

theorem lost_step {s s' : State} {a : Act} (h : step R T r s a = some s') (hc : s.closed = true) (hr : s.ready = false) :
    s'.closed = true ∧ s'.ready = false := by
  cases a <;> simp only [step] at h
  case pickUp => split at h <;> cases h; exact ⟨hc, hr⟩
  case clear => split at h <;> cases h; exact ⟨hc, hr⟩
  case upload => split at h <;> cases h; exact ⟨hc, hr⟩
  case close =>
    split at h
    · rename_i hcl; exact absurd hc hcl.2
    · cases h
  case hangUp => cases h; exact ⟨hc, hr⟩
  case handler c =>
    unfold handle at h
    cases hp : s.pc <;> rw [hp] at h <;> (try dsimp only at h)
    case start => cases h; unfold front; (repeat' split) <;> exact ⟨hc, hr⟩
    case send l =>
      cases l with
      | nil => cases h; exact ⟨hc, hr⟩
      | cons f rest =>
        dsimp only at h
        split at h
        · cases h; exact ⟨hc, hr⟩
        · cases c <;> simp only [reduceCtorEq] at h <;> cases h <;> exact ⟨hc, hr⟩
    case done => cases h
    case choose => cases c <;> simp only [reduceCtorEq] at h <;> split at h <;> cases h <;> exact ⟨hc, hr⟩
    case wait => split at h <;> cases h; exact ⟨hc, hr⟩
    all_goals
      first
      | (cases h; exact ⟨hc, hr⟩)
      | (cases c <;> simp only [reduceCtorEq] at h <;> cases h <;> exact ⟨hc, hr⟩)

/-- C156, the other side: if the grader cannot write the results of the run when it closes it, the answer never ends. -/
theorem lost_results_never_end {acts more : List Act} {s s' : State} {t : String} (h : from0 R T r acts = some s)
    (hc : s.closed = true) (hr : s.ready = false) (h' : run R T r s more = some s') (ha : Accepted s' t) :
    s'.ended = false := by
  have key : s'.closed = true ∧ s'.ready = false := by
    clear ha h
    induction more generalizing s with
    | nil => simp only [run] at h'; cases h'; exact ⟨hc, hr⟩
    | cons a as ih =>
      simp only [run] at h'
      cases hs : step R T r s a with
      | none => rw [hs] at h'; cases h'
      | some s1 => rw [hs] at h'; exact ih (lost_step hs hc hr).1 (lost_step hs hc hr).2 h'
  have h2 : from0 R T r (acts ++ more) = some s' := by
    unfold from0 at h ⊢
    rw [run_append, h]; exact h'
  cases he : s'.ended with
  | false => rfl
  | true => rw [(said_only_when_so h2 ha).2.2.2 he] at key; cases key.2

/-! ### Hanging up -/

/-- The state as if the client had never hung up. -/
def listened (s : State) : State := { s with online := true, heard := s.sent }

theorem listened_say (s : State) (p : Part) : say (listened s) p = listened (say s p) := by
  simp [say, listened]

theorem listened_step {s s' : State} {a : Act} (h : step R T r s a = some s') (ha : a ≠ .hangUp) :
    step R T r (listened s) a = some (listened s') := by
  cases a <;> simp only [step] at h ⊢
  case hangUp => exact absurd rfl ha
  case pickUp => split at h <;> cases h; rename_i hq; rw [if_pos (show (listened s).queued = true from hq)]; rfl
  case clear => split at h <;> cases h; rename_i hq; rw [if_pos (show (listened s).picked = true from hq)]; rfl
  case upload => split at h <;> cases h; rename_i hq; rw [if_pos (show (listened s).picked = true ∧ _ from hq)]; rfl
  case close =>
    split at h <;> cases h; rename_i hq
    rw [if_pos (show (listened s).picked = true ∧ ¬ (listened s).closed = true from hq)]; rfl
  case handler c =>
    unfold handle at h ⊢
    have e : (listened s).pc = s.pc := rfl
    rw [e]
    cases hp : s.pc <;> rw [hp] at h <;> (try dsimp only at h ⊢)
    case start =>
      cases h
      unfold front
      split; · rfl
      split; · rfl
      split; · rfl
      split; · rfl
      split; · rfl
      split
      · rfl
      · exact congrArg some (by simp [say, listened])
      · rfl
    case greet => cases h; exact congrArg some (by simp [say, listened])
    case tell => cases h; exact congrArg some (by simp [say, listened])
    case send l =>
      cases l with
      | nil => cases h; rfl
      | cons f rest =>
        dsimp only at h ⊢
        have e2 : (listened s).dir = s.dir := rfl
        rw [e2]
        split at h
        · cases h; rfl
        · rename_i b hb
          cases c <;> simp only [reduceCtorEq] at h <;> cases h
          · exact congrArg some (by simp [say, listened])
          · rfl
          · exact congrArg some (by simp [say, listened])
    case done => cases h
    case choose =>
      cases c <;> simp only [reduceCtorEq] at h ⊢ <;> split at h <;> cases h <;> rename_i hq
      · rw [if_pos (show (listened s).picked = true from hq)]; exact congrArg some (by simp [say, listened])
      · rw [if_pos (show (listened s).ready = true from hq)]; rfl
    case wait => split at h <;> cases h; rename_i hq; rw [if_pos (show (listened s).ready = true from hq)]; rfl
    all_goals
      first
      | (cases h; rfl)
      | (cases c <;> simp only [reduceCtorEq] at h ⊢ <;> cases h <;> rfl)

theorem listened_run {s s' : State} {acts : List Act} (h : run R T r s acts = some s') :
    run R T r (listened s) (acts.filter (· ≠ .hangUp)) = some (listened s') := by
  induction acts generalizing s with
  | nil => simp only [run] at h; cases h; rfl
  | cons a as ih =>
    simp only [run] at h
    cases hs : step R T r s a with
    | none => rw [hs] at h; cases h
    | some s1 =>
      rw [hs] at h
      by_cases ha : a = .hangUp
      · subst ha
        simp only [step] at hs
        cases hs
        have := ih h
        simpa [listened] using this
      · rw [List.filter_cons_of_pos (by simpa using ha)]
        simp only [run]
        rw [listened_step hs ha]
        exact ih h

/-- C156, hanging up: an execution in which the client hangs up is, without that, an execution too, and what is written,
what becomes of the run and of its directory, and whether the token works are the same. -/
theorem hanging_up_changes_nothing {acts : List Act} {s : State} (h : from0 R T r acts = some s) :
    ∃ s', from0 R T r (acts.filter (· ≠ .hangUp)) = some s' ∧ s'.heard = s.sent ∧ s'.sent = s.sent ∧ s'.head = s.head ∧
      s'.ended = s.ended ∧ s'.queued = s.queued ∧ s'.ready = s.ready ∧ s'.dir = s.dir ∧ s'.kept = s.kept :=
  ⟨listened s, listened_run h, rfl, rfl, rfl, rfl, rfl, rfl, rfl, rfl⟩

/-! ### Nothing fails -/

/-- The file has been sent. -/
def Sent (s : State) (f : String) : Prop := ∃ b, .file f b ∈ s.sent

/-- The request is in the directory. -/
def Saved (s : State) : Prop := ∃ d, s.dir = some d ∧ look d "request.json.gz" ≠ none

/-- What holds where the handler is, if nothing fails. -/
def Fine (s : State) : Prop :=
  match s.pc with
  | .send rest => ∀ f ∈ ["details.json", "logs.txt.gz"], f ∈ rest ∨ Sent s f
  | .save => ∀ f ∈ ["details.json", "logs.txt.gz"], Sent s f
  | .commit => (∀ f ∈ ["details.json", "logs.txt.gz"], Sent s f) ∧ Saved s
  | .done => (∃ t, Accepted s t) → (∀ f ∈ ["details.json", "logs.txt.gz"], Sent s f) ∧ Saved s ∧ s.kept = true
  | _ => True

theorem put_keeps {d : List (String × Bytes)} {n m : String} {b : Bytes} (h : look d m ≠ none) :
    look (put d n b) m ≠ none := by
  by_cases e : m = n
  · rw [e, look_put_same]; simp
  · rw [look_put_other e]; exact h

theorem fine_env {s s' : State} (hf : Fine s) (e0 : s'.pc = s.pc) (e1 : s'.sent = s.sent) (e2 : s'.head = s.head)
    (e3 : s'.kept = s.kept) (e4 : Saved s → Saved s') : Fine s' := by
  unfold Fine at hf ⊢
  rw [e0]
  have es : ∀ f, Sent s f → Sent s' f := by
    rintro f ⟨b, hb⟩; exact ⟨b, by rw [e1]; exact hb⟩
  cases hp : s.pc <;> rw [hp] at hf <;> dsimp only at hf ⊢
  case send => exact fun f hm => (hf f hm).imp id (es f)
  case save => exact fun f hm => es f (hf f hm)
  case commit => exact ⟨fun f hm => es f (hf.1 f hm), e4 hf.2⟩
  case done =>
    rintro ⟨t, ht⟩
    obtain ⟨h1, h2, h3⟩ := hf ⟨t, by unfold Accepted at ht ⊢; rw [← e2]; exact ht⟩
    exact ⟨fun f hm => es f (h1 f hm), e4 h2, by rw [e3]; exact h3⟩

theorem fine_from {acts : List Act} {s : State} (h : from0 R T r acts = some s) (hn : NothingFails acts)
    (hl : NoLateUpload acts) : Fine s := by
  induction acts using List.reverseRecOn generalizing s with
  | nil => unfold from0 run at h; cases h; exact trivial
  | append_singleton acts a ih =>
    obtain ⟨s0, h0, hs⟩ := from_snoc h
    have hf := ih h0 (fun c hm => hn c (List.mem_append_left _ hm)) hl.init
    have hi0 := inv_from h0
    cases a with
    | pickUp => simp only [step] at hs; split at hs <;> cases hs; exact fine_env hf rfl rfl rfl rfl id
    | hangUp => simp only [step] at hs; cases hs; exact fine_env hf rfl rfl rfl rfl id
    | clear =>
      simp only [step] at hs
      split at hs <;> cases hs
      rename_i hpk
      have hnr : s0.ready = false := by
        cases hr : s0.ready with
        | false => rfl
        | true =>
          obtain ⟨g, x, l, t, hm⟩ := (closed_iff h0).1 (hi0.closed hr)
          exact absurd hm (hl acts [] rfl g x l t)
      have hq := hi0.queued hpk
      have hat := hi0.at_
      unfold Fine at hf ⊢
      cases hp : s0.pc <;> rw [hp] at hat <;> simp only [At] at hat
      case send => rw [hat.2.2.1] at hnr; cases hnr
      case save => rw [hat.2.2.1] at hnr; cases hnr
      case commit => rw [hat.2.2.1] at hnr; cases hnr
      case done =>
        rcases hat with hat | hat
        · rw [hat.1] at hq; cases hq
        · rw [hat.2.2.1] at hnr; cases hnr
      all_goals simp only
    | upload n b =>
      simp only [step] at hs
      split at hs <;> cases hs
      refine fine_env hf rfl rfl rfl rfl ?_
      rintro ⟨d, hd, hl⟩
      exact ⟨put d n b, by simp [hd], put_keeps hl⟩
    | close g x l t =>
      simp only [step] at hs
      split at hs <;> cases hs
      refine fine_env hf rfl rfl rfl rfl ?_
      rintro ⟨d, hd, hl⟩
      refine ⟨_, rfl, ?_⟩
      have h1 : look (if 0 < g then put (s0.dir.getD []) "details.json" x else s0.dir.getD []) "request.json.gz" ≠ none := by
        rw [hd]; split
        · exact put_keeps hl
        · exact hl
      have h2 : look (if 1 < g then put (if 0 < g then put (s0.dir.getD []) "details.json" x else s0.dir.getD [])
          "logs.txt.gz" l else (if 0 < g then put (s0.dir.getD []) "details.json" x else s0.dir.getD []))
          "request.json.gz" ≠ none := by
        split
        · exact put_keeps h1
        · exact h1
      split
      · exact put_keeps h2
      · exact h2
    | handler c =>
      obtain ⟨c1, c2, c3⟩ := hn c (by simp)
      simp only [step] at hs
      unfold handle at hs
      unfold Fine at hf
      have hat := hi0.at_
      cases hp : s0.pc <;> rw [hp] at hs hf hat <;> (try dsimp only at hs hf)
      case start =>
        cases hs
        unfold front
        split; · simp [Fine, Accepted]
        split; · simp [Fine, Accepted]
        split; · simp [Fine, Accepted]
        split; · simp [Fine, Accepted]
        split; · simp [Fine, Accepted]
        split
        · simp [Fine, Accepted]
        · simp [Fine, Accepted, say]
        · simp [Fine]
      case wait =>
        split at hs <;> cases hs
        unfold Fine
        simp [filenames]
      case send l =>
        simp only [At] at hat
        cases l with
        | nil =>
          cases hs
          intro f hm
          rcases hf f hm with h' | h'
          · cases h'
          · exact h'
        | cons f rest =>
          dsimp only at hs
          cases hd : s0.dir with
          | none => rw [hd] at hat; simp at hat
          | some d =>
            obtain ⟨hx, hlo⟩ := verdict_there h0 hat.2.2.1 hl.init hd
            rw [hd] at hs
            simp only [Option.bind_some] at hs
            cases hb : look d f with
            | none =>
              rw [hb] at hs; cases hs
              intro f' hm
              rcases hf f' hm with h' | h'
              · rcases List.mem_cons.1 h' with rfl | h'
                · simp only [List.mem_cons, List.not_mem_nil, or_false] at hm
                  rcases hm with rfl | rfl
                  · exact absurd hb hx
                  · exact absurd hb hlo
                · exact Or.inl h'
              · exact Or.inr h'
            | some b =>
              rw [hb] at hs
              cases c <;> simp only [reduceCtorEq] at hs <;> cases hs
              · intro f' hm
                rcases hf f' hm with h' | ⟨b', h'⟩
                · rcases List.mem_cons.1 h' with rfl | h'
                  · exact Or.inr ⟨b, List.mem_append_right _ (List.mem_singleton.2 rfl)⟩
                  · exact Or.inl h'
                · exact Or.inr ⟨b', List.mem_append_left _ h'⟩
              · exact absurd rfl c1
              · exact absurd rfl (c3 _)
      case save =>
        simp only [At] at hat
        cases c <;> simp only [reduceCtorEq] at hs <;> cases hs
        · cases hd : s0.dir with
          | none => rw [hd] at hat; simp at hat
          | some d =>
            refine ⟨hf, put d "request.json.gz" [], by simp, ?_⟩
            rw [look_put_same]; simp
        · exact absurd rfl c1
        · exact absurd rfl c2
      case commit =>
        cases c <;> simp only [reduceCtorEq] at hs <;> cases hs
        · exact fun _ => ⟨hf.1, hf.2, rfl⟩
        · exact absurd rfl c1
      case done => cases hs
      case input =>
        cases c <;> simp only [reduceCtorEq] at hs <;> cases hs
        · exact trivial
        · exact absurd rfl c1
      case naming =>
        cases c <;> simp only [reduceCtorEq] at hs <;> cases hs
        · exact absurd rfl c1
        · exact trivial
      case choose => cases c <;> simp only [reduceCtorEq] at hs <;> split at hs <;> cases hs <;> exact trivial
      all_goals (cases hs; exact trivial)

theorem closed_mem {acts : List Act} {s : State} (h : from0 R T r acts = some s) {g : Nat} {x l t : Bytes}
    (hm : .close g x l t ∈ acts) : s.closed = true := (closed_iff h).2 ⟨g, x, l, t, hm⟩

/-- A run is closed once. -/
theorem closed_once {acts : List Act} {s : State} (h : from0 R T r acts = some s) {g g' : Nat} {x l t x' l' t' : Bytes}
    (hm : .close g x l t ∈ acts) (hm' : .close g' x' l' t' ∈ acts) : x = x' := by
  induction acts using List.reverseRecOn generalizing s with
  | nil => cases hm
  | append_singleton acts a ih =>
    obtain ⟨s0, h0, hs⟩ := from_snoc h
    have no : ∀ {g x l t}, .close g x l t ∈ acts → ∀ {g' x' l' t'}, a = .close g' x' l' t' → False := by
      intro g x l t hm2 g' x' l' t' e
      subst e
      have hc := closed_mem h0 hm2
      simp only [step, hc, not_true, and_false, if_false] at hs
      cases hs
    rcases List.mem_append.1 hm with hm | hm <;> rcases List.mem_append.1 hm' with hm' | hm'
    · exact ih h0 hm hm'
    · exact (no hm (List.mem_singleton.1 hm').symm).elim
    · exact (no hm' (List.mem_singleton.1 hm).symm).elim
    · have := (List.mem_singleton.1 hm).trans (List.mem_singleton.1 hm').symm
      cases this; rfl

theorem ended_done {s : State} (hi : Inv s) (he : s.ended = true) : s.pc = .done := by
  have ha := hi.at_
  cases hp : s.pc <;> rw [hp] at ha <;> simp only [At] at ha <;> simp_all

/-- C156, in full: if nothing fails on the disk, and no upload begins after the run was closed, an answer that has ended
holds the whole verdict the run was closed with, and its logs. -/
theorem whole_verdict_sent {acts : List Act} {s : State} {t : String} (h : from0 R T r acts = some s) (ha : Accepted s t)
    (he : s.ended = true) (hn : NothingFails acts) (hl : NoLateUpload acts) :
    (∃ good details logs tracing, .close good details logs tracing ∈ acts ∧ .file "details.json" details ∈ s.sent) ∧
    ∃ logs, .file "logs.txt.gz" logs ∈ s.sent := by
  have hf := fine_from h hn hl
  unfold Fine at hf
  rw [ended_done (inv_from h) he] at hf
  obtain ⟨h1, -⟩ := hf ⟨t, ha⟩
  obtain ⟨b, hb⟩ := h1 "details.json" (by simp)
  obtain ⟨g, x, l, tr, hc, -, hw⟩ := verdict_is_the_runs h hb
  have : b = x := hw (fun k hm => (hn _ hm).2.2 k rfl)
  exact ⟨⟨g, x, l, tr, hc, this ▸ hb⟩, h1 "logs.txt.gz" (by simp)⟩

/-! ## C157 -/

/-- C157, the part that holds: if nothing fails on the disk and no upload begins after the run was closed, the token works
once the answer has ended; the request has been saved, and the verdict that is kept is the one that was sent. -/
theorem token_works_partial {acts : List Act} {s : State} {t : String} (h : from0 R T r acts = some s) (ha : Accepted s t)
    (he : s.ended = true) (hn : NothingFails acts) (hl : NoLateUpload acts) :
    Works s ∧ ∃ d details, s.dir = some d ∧ look d "request.json.gz" ≠ none ∧ look d "details.json" = some details ∧
      .file "details.json" details ∈ s.sent := by
  have hf := fine_from h hn hl
  unfold Fine at hf
  rw [ended_done (inv_from h) he] at hf
  obtain ⟨h1, ⟨d, hd, hreq⟩, hk⟩ := hf ⟨t, ha⟩
  refine ⟨⟨hk, by simp [hd]⟩, d, ?_⟩
  have hx := (verdict_there h ((said_only_when_so h ha).2.2.2 he) hl hd).1
  cases hxx : look d "details.json" with
  | none => exact absurd hxx hx
  | some x =>
    obtain ⟨g, lo, tr, hc⟩ := verdict_only h hd hxx
    obtain ⟨b, hb⟩ := h1 "details.json" (by simp)
    obtain ⟨g', x', l', tr', hc', -, hw⟩ := verdict_is_the_runs h hb
    refine ⟨x, hd, hreq, rfl, ?_⟩
    have e : b = x' := hw (fun k hm => (hn _ hm).2.2 k rfl)
    have e2 : x' = x := closed_once h hc' hc
    rw [← e2, ← e]; exact hb

end

/-! ### Witnesses -/

/-- A proper request. -/
def sampleRequest : Request where
  method := "POST"
  contentType := "application/json"
  body := some { source := "x", language := "py3", input := some Literal.sampleInput }

/-- A run that is graded, of which the files are sent, and the last steps. -/
def graded (last : List Act) : List Act :=
  [.handler .ok, .handler .ok, .handler (.name "abc"), .handler .ok, .handler .ok, .pickUp, .handler .ok, .handler .ok,
    .clear, .upload "files.zip" [7], .close 3 [1, 2] [3] [4], .handler .ok, .handler .ok, .handler .ok, .handler .ok, .handler .ok] ++
    last

/-- What the client is sent. -/
def gradedParts : List Part :=
  [.status "waiting", .status "queueing", .status "running", .file "logs.txt.gz" [3], .file "files.zip" [7],
    .file "details.json" [1, 2]]

/-- Nothing fails: the token works. -/
theorem graded_ok : ∃ s, from0 Literal.plainRuntime Literal.plainTools sampleRequest
    (graded [.handler .ok, .handler .ok]) = some s ∧ Accepted s "abc" ∧ s.ended = true ∧ s.heard = gradedParts ∧ Works s := by
  refine ⟨(from0 Literal.plainRuntime Literal.plainTools sampleRequest (graded [.handler .ok, .handler .ok])).getD {}, ?_⟩
  unfold Accepted Works
  decide +kernel

example : NothingFails (graded [.handler .ok, .handler .ok]) := by
  intro c hc
  simp [graded] at hc
  rcases hc with rfl | rfl | rfl <;> simp

example : NoLateUpload (graded [.handler .ok, .handler .ok]) := by
  intro before after e g x l t hm
  have hlen := congrArg List.length e
  obtain ⟨i, hi, hm⟩ := List.getElem_of_mem hm
  have h1 : (graded [.handler .ok, .handler .ok])[i]? = some (.close g x l t) := by
    rw [e, List.getElem?_append_left hi, List.getElem?_eq_getElem hi, hm]
  have h2 : (graded [.handler .ok, .handler .ok])[before.length]? = some .clear := by
    rw [e, List.getElem?_append_right (Nat.le_refl _)]; simp
  have hb : before.length < 18 := by simp [graded] at hlen; omega
  clear hm hlen e
  generalize before.length = n at *
  have hn : n = 8 := by
    interval_cases n <;> simp [graded] at h2 ⊢
  subst hn
  interval_cases i <;> simp [graded] at h1

/-- The request cannot be saved: everything has been sent and the answer has ended properly, but the directory is gone. -/
theorem graded_unsaved : ∃ s, from0 Literal.plainRuntime Literal.plainTools sampleRequest
    (graded [.handler .fail]) = some s ∧ Accepted s "abc" ∧ s.ended = true ∧ s.heard = gradedParts ∧ s.dir = none := by
  refine ⟨(from0 Literal.plainRuntime Literal.plainTools sampleRequest (graded [.handler .fail])).getD {}, ?_⟩
  unfold Accepted
  decide +kernel

/-- The run cannot be added to the cache: the error is ignored, the directory stays and the token does not work. -/
theorem graded_uncommitted : ∃ s, from0 Literal.plainRuntime Literal.plainTools sampleRequest
    (graded [.handler .ok, .handler .fail]) = some s ∧ Accepted s "abc" ∧ s.ended = true ∧ s.heard = gradedParts ∧
      s.dir.isSome ∧ s.kept = false := by
  refine ⟨(from0 Literal.plainRuntime Literal.plainTools sampleRequest (graded [.handler .ok, .handler .fail])).getD {}, ?_⟩
  unfold Accepted
  decide +kernel

/-- C157 is false: a client can be told everything, properly to the end, and be left with a token that does not work. -/
theorem tokens_may_not_work : ¬ TokensWork Literal.plainRuntime Literal.plainTools := by
  intro h
  obtain ⟨s, h1, h2, h3, -, h5⟩ := graded_unsaved
  obtain ⟨-, h6⟩ := h _ _ _ _ h1 h2 h3
  rw [h5] at h6
  cases h6

/-- A second upload of the same attempt begins after the run was closed: the answer ends properly, the token works, but
there are no results, neither in the answer nor in the directory. -/
theorem late_upload_loses_results : ∃ s, from0 Literal.plainRuntime Literal.plainTools sampleRequest
    [.handler .ok, .handler .ok, .handler (.name "abc"), .handler .ok, .handler .ok, .pickUp, .handler .ok, .handler .ok,
      .clear, .upload "files.zip" [7], .close 3 [1, 2] [3] [4], .handler .ok, .clear, .handler .ok, .handler .ok, .handler .ok,
      .handler .ok, .handler .ok, .handler .ok] = some s ∧
    Accepted s "abc" ∧ s.ended = true ∧ s.kept = true ∧ s.dir = some [("request.json.gz", [])] ∧
    s.heard = [.status "waiting", .status "queueing", .status "running"] := by
  refine ⟨(from0 Literal.plainRuntime Literal.plainTools sampleRequest
    [.handler .ok, .handler .ok, .handler (.name "abc"), .handler .ok, .handler .ok, .pickUp, .handler .ok, .handler .ok,
      .clear, .upload "files.zip" [7], .close 3 [1, 2] [3] [4], .handler .ok, .clear, .handler .ok, .handler .ok, .handler .ok,
      .handler .ok, .handler .ok, .handler .ok]).getD {}, ?_⟩
  unfold Accepted
  decide +kernel

/-- "running" may be left out although a runner has had the run: both channels are closed and the `select` takes the other. -/
example : ∃ s, from0 Literal.plainRuntime Literal.plainTools sampleRequest
    [.handler .ok, .handler .ok, .handler (.name "abc"), .handler .ok, .handler .ok, .pickUp, .close 3 [] [] [], .handler .ok,
      .handler .over] = some s ∧ s.picked = true ∧ s.heard = [.status "waiting", .status "queueing"] := by
  refine ⟨(from0 Literal.plainRuntime Literal.plainTools sampleRequest
    [.handler .ok, .handler .ok, .handler (.name "abc"), .handler .ok, .handler .ok, .pickUp, .close 3 [] [] [], .handler .ok,
      .handler .over]).getD {}, ?_⟩
  decide +kernel

/-- A run of which the results cannot be written (`lost_results_never_end`). -/
example : ∃ s, from0 Literal.plainRuntime Literal.plainTools sampleRequest
    [.handler .ok, .handler .ok, .handler (.name "abc"), .handler .ok, .handler .ok, .pickUp, .close 1 [] [] []] = some s ∧
      Accepted s "abc" ∧ s.closed = true ∧ s.ready = false := by
  refine ⟨(from0 Literal.plainRuntime Literal.plainTools sampleRequest
    [.handler .ok, .handler .ok, .handler (.name "abc"), .handler .ok, .handler .ok, .pickUp, .close 1 [] [] []]).getD {}, ?_⟩
  unfold Accepted
  decide +kernel

end Quark.Conversation
