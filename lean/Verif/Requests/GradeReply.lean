import Verif.Requests.Props

/-!
# What the answer to a rejudge request says (C125)

`/run/grade/` keeps the result of `injectRuns` in a variable shared by all requests
(/repo/cmd/omegaup-grader/frontend_handler.go:436, :644).
-/

namespace Quark.Requests

/-! ## Specification -/

/-- Request `t` is to rejudge these runs. -/
def Asked (s : State) (t : Nat) (ids : List (Nat × Lookup)) : Prop :=
  ∃ rejudge debug, s.calls[t]? = some (.grade rejudge debug ids)

/-- Request `t` has been answered with this status. -/
def Answered (s : State) (t st : Nat) : Prop := s.threads[t]? = some (.replied st)

/-- All the runs have been given to the queue, in the order in which they were named. -/
def AllQueued (s : State) (t : Nat) (ids : List (Nat × Lookup)) : Prop :=
  (addedBy s t).map (fun r => r.id) = ids.map Prod.fst

/-- C125: a rejudge request is answered with 200 exactly if all its runs have been queued. -/
def HonestAnswers : Prop := ∀ (files : Guid → Option Str) (acts : List Act) (t st : Nat) (ids : List (Nat × Lookup)),
  Asked (run files acts) t ids → Answered (run files acts) t st → (st = 200 ↔ AllQueued (run files acts) t ids)

/-- No handler of another rejudge request does anything while request `t` is between storing the result of `injectRuns`
and looking at it. -/
def Undisturbed (files : Guid → Option Str) (acts : List Act) (t : Nat) : Prop :=
  ∀ pre t' c post, acts = pre ++ .step t' c :: post → t' ≠ t → (∃ ids, Asked (run files pre) t' ids) →
    ∀ ok, (run files pre).threads[t]? ≠ some (.checking ok)

/-! ## Proof -/

/-- What a step of a handler can be. -/
theorem step_shape (s : State) (t : Nat) (ch : Choice) (th : Thread) :
    (∃ ok, threadStep s t ch th = finish s t ok) ∨
    (∃ ok, th = .checking ok ∧ threadStep s t ch th =
      { s with threads := s.threads.set t (.replied (if s.err then 500 else 200)) }) ∨
    (∃ st, th = .replied st ∧ threadStep s t ch th = s) ∨
    ((threadStep s t ch th).err = s.err ∧ ∃ th', (threadStep s t ch th).threads = s.threads.set t th' ∧
      (∀ ok, th' ≠ .checking ok) ∧ (∀ st, th' = .replied st → ∃ r b, th = .opening r b)) := by
  cases th with
  | opening r b =>
    right; right; right
    cases ch <;> simp only [threadStep]
    case fail => exact ⟨trivial, _, rfl, by simp, by simp⟩
    all_goals
      split
      · exact ⟨rfl, _, rfl, by simp, by simp⟩
      · exact ⟨rfl, _, rfl, by simp, by simp⟩
  | copying r b =>
    right; right; right
    cases ch <;> simp only [threadStep]
    all_goals exact ⟨trivial, _, rfl, by simp, by simp⟩
  | injecting p rest =>
    cases rest with
    | nil => exact Or.inl ⟨true, rfl⟩
    | cons r rest =>
      cases ch <;> simp only [threadStep]
      case fail => exact Or.inl ⟨false, rfl⟩
      all_goals
        split
        · exact Or.inl ⟨false, rfl⟩
        · exact Or.inr (Or.inr (Or.inr ⟨rfl, _, rfl, by simp, by simp⟩))
  | adding p r rest => exact Or.inr (Or.inr (Or.inr ⟨rfl, _, rfl, by simp, by simp⟩))
  | checking ok => exact Or.inr (Or.inl ⟨ok, rfl, rfl⟩)
  | replied st => exact Or.inr (Or.inr (Or.inl ⟨st, rfl, rfl⟩))

theorem finish_err_other {s : State} {t : Nat} {ok : Bool} (h : ¬ ∃ ids, Asked s t ids) : (finish s t ok).err = s.err := by
  unfold finish
  split
  · rename_i hc; exact absurd ⟨_, _, _, hc⟩ h
  · rfl

/-- Only handlers of rejudge requests assign the shared variable. -/
theorem step_err {s : State} {t : Nat} {ch : Choice} {th : Thread} (h : ¬ ∃ ids, Asked s t ids) :
    (threadStep s t ch th).err = s.err := by
  rcases step_shape s t ch th with ⟨ok, e⟩ | ⟨ok, -, e⟩ | ⟨st, -, e⟩ | ⟨e, -⟩
  · rw [e, finish_err_other h]
  · rw [e]
  · rw [e]
  · exact e

theorem Asked.isGrade {s : State} {t : Nat} {ids : List (Nat × Lookup)} (h : Asked s t ids) :
    ∃ c, s.calls[t]? = some c ∧ c.isGrade = true := by
  obtain ⟨rj, db, h⟩ := h
  exact ⟨_, h, rfl⟩

/-- The requests a state knows are still there after a step, and are otherwise the new one. -/
theorem calls_step {s : State} {a : Act} {t : Nat} {c : Call} (h : s.calls[t]? = some c) :
    (step s a).calls[t]? = some c := by
  cases a with
  | call d =>
    show (s.calls ++ [d])[t]? = some c
    rw [List.getElem?_append_left (List.getElem?_eq_some_iff.1 h).1]; exact h
  | step t' ch =>
    simp only [step]
    split
    · exact h
    · rw [step_calls]; exact h

/-- The other threads. -/
theorem threads_other {s : State} {t t' : Nat} {ch : Choice} {th : Thread} (hne : t' ≠ t) :
    (threadStep s t' ch th).threads[t]? = s.threads[t]? := by
  have hset : ∀ x, (s.threads.set t' x)[t]? = s.threads[t]? := fun x => by rw [List.getElem?_set, if_neg hne]
  rcases step_shape s t' ch th with ⟨ok, e⟩ | ⟨ok, -, e⟩ | ⟨st, -, e⟩ | ⟨-, x, e, -⟩
  · rw [e]
    unfold finish
    split <;> exact hset _
  · rw [e]; exact hset _
  · rw [e]
  · rw [e]; exact hset x

/-- Request `t` has settled: `injectRuns` has returned, with this result. -/
def Settled (s : State) (t : Nat) (ok : Bool) : Prop :=
  ∃ rj db ids rs, s.calls[t]? = some (.grade rj db ids) ∧ Call.runs (.grade rj db ids) = some rs ∧
    (s.threads[t]? = some (.checking ok) ∨ ∃ st, s.threads[t]? = some (.replied st)) ∧
    (if ok then Full (.grade rj db ids) rs (addedBy s t) else Part (.grade rj db ids) rs (addedBy s t))

theorem threads_call {s : State} {c : Call} {t : Nat} {th : Thread} (h : s.threads[t]? = some th) :
    (step s (.call c)).threads[t]? = some th := by
  show (s.threads ++ [c.start])[t]? = some th
  rw [List.getElem?_append_left (List.getElem?_eq_some_iff.1 h).1]; exact h

theorem Settled.step {s : State} {a : Act} {t : Nat} {ok : Bool} (h : Settled s t ok) :
    Settled (step s a) t ok := by
  obtain ⟨rj, db, ids, rs, hc, hr, ht, hd⟩ := h
  refine ⟨rj, db, ids, rs, calls_step hc, hr, ?_⟩
  cases a with
  | call c =>
    refine ⟨?_, hd⟩
    rcases ht with ht | ⟨st, ht⟩
    · exact Or.inl (threads_call ht)
    · exact Or.inr ⟨st, threads_call ht⟩
  | step t' ch =>
    show _ ∧ (if ok then Full _ rs (addedBy (Requests.step s (.step t' ch)) t) else
      Part _ rs (addedBy (Requests.step s (.step t' ch)) t))
    simp only [Requests.step]
    cases hth : s.threads[t']? with
    | none => exact ⟨ht, hd⟩
    | some th =>
      by_cases hne : t' = t
      · subst hne
        rcases ht with ht | ⟨st, ht⟩
        · rw [hth] at ht; cases ht
          refine ⟨Or.inr ⟨if s.err then 500 else 200, ?_⟩, hd⟩
          simp [threadStep, (List.getElem?_eq_some_iff.1 hth).1]
        · rw [hth] at ht; cases ht
          exact ⟨Or.inr ⟨st, hth⟩, hd⟩
      · dsimp only
        rw [threads_other hne, step_added s t' t ch th hne]
        exact ⟨ht, hd⟩

theorem start_not_checking (c : Call) (ok : Bool) : c.start ≠ .checking ok := by
  cases c <;> simp only [Call.start] <;> (try split) <;> simp

theorem threads_call_inv {s : State} {c : Call} {t : Nat} {th : Thread} (h : (step s (.call c)).threads[t]? = some th) :
    s.threads[t]? = some th ∨ (t = s.threads.length ∧ th = c.start) := by
  have h : (s.threads ++ [c.start])[t]? = some th := h
  rcases Nat.lt_or_ge t s.threads.length with hl | hl
  · rw [List.getElem?_append_left hl] at h; exact Or.inl h
  · rw [List.getElem?_append_right hl] at h
    rcases Nat.eq_zero_or_pos (t - s.threads.length) with h0 | h0
    · rw [h0] at h; simp at h; exact Or.inr ⟨by omega, h.symm⟩
    · rw [List.getElem?_eq_none (by simp only [List.length_singleton]; exact h0)] at h; cases h

theorem calls_call_inv {s : State} {d : Call} {t : Nat} {c : Call} (h : (step s (.call d)).calls[t]? = some c) :
    s.calls[t]? = some c ∨ (t = s.calls.length ∧ c = d) := by
  have h : (s.calls ++ [d])[t]? = some c := h
  rcases Nat.lt_or_ge t s.calls.length with hl | hl
  · rw [List.getElem?_append_left hl] at h; exact Or.inl h
  · rw [List.getElem?_append_right hl] at h
    rcases Nat.eq_zero_or_pos (t - s.calls.length) with h0 | h0
    · rw [h0] at h; simp at h; exact Or.inr ⟨by omega, h.symm⟩
    · rw [List.getElem?_eq_none (by simp only [List.length_singleton]; exact h0)] at h; cases h

/-- A step of the handler of a rejudge request ends in `checking` or `replied` only like this. -/
theorem step_self {files : Guid → Option Str} {acts : List Act} {t : Nat} {ch : Choice} {th : Thread} {rj db : Bool}
    {ids : List (Nat × Lookup)} {rs : List RunCtx} (hc : (run files acts).calls[t]? = some (.grade rj db ids))
    (hr : Call.runs (.grade rj db ids) = some rs) (ht : (run files acts).threads[t]? = some th) :
    (∀ ok, (step (run files acts) (.step t ch)).threads[t]? = some (.checking ok) →
      (step (run files acts) (.step t ch)).err = !ok ∧ Settled (step (run files acts) (.step t ch)) t ok) ∧
    (∀ st, (step (run files acts) (.step t ch)).threads[t]? = some (.replied st) →
      (th = .replied st) ∨ ((∃ ok, th = .checking ok) ∧ st = if (run files acts).err then 500 else 200)) := by
  have hi := inv_run files acts
  have hok := hi.ok t _ _ hc ht
  generalize hs : run files acts = s at *
  have htl := (List.getElem?_eq_some_iff.1 ht).1
  have get : ∀ x, (s.threads.set t x)[t]? = some x := fun x => by simp [htl]
  have e : step s (.step t ch) = threadStep s t ch th := by simp [step, ht]
  have hi' := inv_step (.step t ch) hi
  rw [e] at hi' ⊢
  rcases step_shape s t ch th with ⟨ok, e⟩ | ⟨ok, rfl, e⟩ | ⟨st, rfl, e⟩ | ⟨-, x, e, h1, h2⟩
  · have ef := finish_grade hc rfl ok
    have hcall : (threadStep s t ch th).calls[t]? = some (.grade rj db ids) := by rw [step_calls]; exact hc
    have hth' : (threadStep s t ch th).threads[t]? = some (.checking ok) := by rw [e, ef]; exact get _
    have hok' := hi'.ok t _ _ hcall hth'
    simp only [ThreadOk, hr] at hok'
    constructor
    · intro ok' h
      rw [hth'] at h
      cases h
      refine ⟨by rw [e, ef], rj, db, ids, rs, hcall, hr, Or.inl hth', ?_⟩
      rcases hok'.2 with ⟨rfl, h⟩ | ⟨rfl, h⟩
      · exact h
      · exact h
    · intro st h
      rw [hth'] at h
      cases h
  · rw [e]
    constructor
    · intro ok' h
      dsimp only at h
      rw [get] at h
      cases h
    · intro st h
      dsimp only at h
      rw [get] at h
      cases h
      exact Or.inr ⟨⟨ok, rfl⟩, rfl⟩
  · rw [e]
    constructor
    · intro ok' h; rw [ht] at h; cases h
    · intro st' h; rw [ht] at h; cases h; exact Or.inl rfl
  · rw [e, get]
    constructor
    · intro ok' h; cases h; exact absurd rfl (h1 ok')
    · intro st' h
      cases h
      obtain ⟨r, b, rfl⟩ := h2 st' rfl
      simp only [ThreadOk, hr] at hok
      obtain ⟨⟨id, l, h⟩, -⟩ := hok
      cases h

theorem undisturbed_of_append {files : Guid → Option Str} {acts : List Act} {a : Act} {t : Nat}
    (h : Undisturbed files (acts ++ [a]) t) : Undisturbed files acts t := by
  intro pre t' c post e
  exact h pre t' c (post ++ [a]) (by rw [e]; simp)

theorem undisturbed_inv {files : Guid → Option Str} {acts : List Act} {t : Nat} (hu : Undisturbed files acts t)
    {rj db : Bool} {ids : List (Nat × Lookup)} {rs : List RunCtx}
    (hc : (run files acts).calls[t]? = some (.grade rj db ids)) (hr : Call.runs (.grade rj db ids) = some rs) :
    (∀ ok, (run files acts).threads[t]? = some (.checking ok) → (run files acts).err = !ok ∧ Settled (run files acts) t ok) ∧
    (∀ st, (run files acts).threads[t]? = some (.replied st) →
      (st = 200 ∧ Settled (run files acts) t true) ∨ (st = 500 ∧ Settled (run files acts) t false)) := by
  induction acts using List.reverseRecOn with
  | nil => simp [run] at hc
  | append_singleton acts a ih =>
    have ih := ih (undisturbed_of_append hu)
    rw [run_append] at hc ⊢
    cases a with
    | call d =>
      have hi := inv_run files acts
      rcases calls_call_inv hc with hc0 | ⟨rfl, rfl⟩
      · obtain ⟨ih1, ih2⟩ := ih hc0
        have old : ∀ th, (step (run files acts) (.call d)).threads[t]? = some th → (run files acts).threads[t]? = some th := by
          intro th h
          rcases threads_call_inv h with h | ⟨h, -⟩
          · exact h
          · have := (List.getElem?_eq_some_iff.1 hc0).1
            have := hi.len
            omega
        refine ⟨fun ok h => ⟨(ih1 ok (old _ h)).1, (ih1 ok (old _ h)).2.step⟩, fun st h => ?_⟩
        rcases ih2 st (old _ h) with ⟨e, h⟩ | ⟨e, h⟩
        · exact Or.inl ⟨e, h.step⟩
        · exact Or.inr ⟨e, h.step⟩
      · have new : ∀ th, (step (run files acts) (.call (.grade rj db ids))).threads[(run files acts).calls.length]? = some th →
            th = Call.start (.grade rj db ids) := by
          intro th h
          rcases threads_call_inv h with h | ⟨-, h⟩
          · have := (List.getElem?_eq_some_iff.1 h).1
            have := hi.len
            omega
          · exact h
        have hst : Call.start (.grade rj db ids) = .injecting (if rj || db then Priority.low else Priority.normal) rs := by
          have hr' : contexts ids = some rs := hr
          simp only [Call.start, hr']
        constructor
        · intro ok h; have := new _ h; rw [hst] at this; cases this
        · intro st h; have := new _ h; rw [hst] at this; cases this
    | step t' ch =>
      cases hth : (run files acts).threads[t']? with
      | none =>
        have e : step (run files acts) (.step t' ch) = run files acts := by simp [step, hth]
        rw [e] at hc ⊢
        exact ih hc
      | some th =>
        have e : step (run files acts) (.step t' ch) = threadStep (run files acts) t' ch th := by simp [step, hth]
        have hc0 : (run files acts).calls[t]? = some (.grade rj db ids) := by rw [e, step_calls] at hc; exact hc
        obtain ⟨ih1, ih2⟩ := ih hc0
        by_cases hne : t' = t
        · subst hne
          obtain ⟨h1, h2⟩ := step_self (ch := ch) hc0 hr hth
          refine ⟨h1, fun st h => ?_⟩
          rcases h2 st h with rfl | ⟨⟨ok, rfl⟩, rfl⟩
          · rcases ih2 st hth with ⟨e, h⟩ | ⟨e, h⟩
            · exact Or.inl ⟨e, h.step⟩
            · exact Or.inr ⟨e, h.step⟩
          · obtain ⟨h3, h4⟩ := ih1 ok hth
            rw [h3]
            cases ok with
            | true => exact Or.inl ⟨rfl, h4.step⟩
            | false => exact Or.inr ⟨rfl, h4.step⟩
        · have hto : (step (run files acts) (.step t' ch)).threads[t]? = (run files acts).threads[t]? := by
            rw [e]; exact threads_other hne
          rw [hto]
          refine ⟨fun ok h => ⟨?_, (ih1 ok h).2.step⟩, fun st h => ?_⟩
          · have hna : ¬ ∃ ids, Asked (run files acts) t' ids := fun ha =>
              hu acts t' ch [] rfl hne ha ok h
            rw [e, step_err hna]
            exact (ih1 ok h).1
          · rcases ih2 st h with ⟨e, h⟩ | ⟨e, h⟩
            · exact Or.inl ⟨e, h.step⟩
            · exact Or.inr ⟨e, h.step⟩

theorem Settled.allQueued {s : State} {t : Nat} {ok : Bool} {ids : List (Nat × Lookup)} (h : Settled s t ok)
    (ha : Asked s t ids) : AllQueued s t ids ↔ ok = true := by
  obtain ⟨rj, db, ids', rs, hc, hr, -, hd⟩ := h
  obtain ⟨rj', db', ha⟩ := ha
  rw [hc] at ha
  cases ha
  cases ok with
  | true => exact ⟨fun _ => rfl, fun _ => Full.ids hr hd⟩
  | false =>
    constructor
    · intro h
      have := congrArg List.length h
      simp only [List.length_map] at this
      have := (Part.ids hr hd).2
      omega
    · intro h; cases h

theorem failed_lookup {files : Guid → Option Str} {acts : List Act} {t st : Nat} {rj db : Bool} {ids : List (Nat × Lookup)}
    (hc : (run files acts).calls[t]? = some (.grade rj db ids)) (hr : Call.runs (.grade rj db ids) = none)
    (ht : Answered (run files acts) t st) : st = 500 ∧ ¬ AllQueued (run files acts) t ids := by
  have hn : ∃ id, (id, none) ∈ ids := contexts_none.1 hr
  obtain ⟨h1, h2⟩ := (C65_grade files acts t rj db ids hc).2 hn
  unfold Answered at ht
  rw [h1] at ht
  cases ht
  refine ⟨rfl, fun h => ?_⟩
  unfold AllQueued at h
  rw [h2] at h
  obtain ⟨id, hid⟩ := hn
  have := congrArg List.length h
  simp only [List.map_nil, List.length_nil, List.length_map] at this
  rw [List.length_eq_zero_iff.1 this.symm] at hid
  cases hid

/-- C125, as far as it goes: the answer to a rejudge request is right if no other rejudge request is served just when it
is about to look at its result. -/
theorem C125_answer_partial (files : Guid → Option Str) (acts : List Act) (t st : Nat) (ids : List (Nat × Lookup))
    (hu : Undisturbed files acts t) (ha : Asked (run files acts) t ids) (ht : Answered (run files acts) t st) :
    (st = 200 ↔ AllQueued (run files acts) t ids) ∧ (st ≠ 200 → st = 500) := by
  obtain ⟨rj, db, hc⟩ := ha
  cases hr : Call.runs (.grade rj db ids) with
  | none =>
    obtain ⟨rfl, h⟩ := failed_lookup hc hr ht
    exact ⟨⟨fun h => absurd h (by decide), fun h' => absurd h' h⟩, fun _ => rfl⟩
  | some rs =>
    rcases (undisturbed_inv hu hc hr).2 st ht with ⟨rfl, h⟩ | ⟨rfl, h⟩
    · exact ⟨⟨fun _ => (h.allQueued ⟨rj, db, hc⟩).2 rfl, fun _ => rfl⟩, fun h => absurd rfl h⟩
    · refine ⟨⟨fun h => absurd h (by decide), fun h' => ?_⟩, fun _ => rfl⟩
      cases (h.allQueued ⟨rj, db, hc⟩).1 h'

/-- In particular the answers are right as long as there is only one rejudge request at all. -/
theorem C125_single_partial (files : Guid → Option Str) (acts : List Act) (t st : Nat) (ids : List (Nat × Lookup))
    (ha : Asked (run files acts) t ids) (ht : Answered (run files acts) t st)
    (h1 : ∀ t' ids', Asked (run files acts) t' ids' → t' = t) :
    st = 200 ↔ AllQueued (run files acts) t ids := by
  refine (C125_answer_partial files acts t st ids ?_ ha ht).1
  rintro pre t' c post rfl hne ⟨ids', rj, db, hc⟩
  refine absurd (h1 t' ids' ⟨rj, db, ?_⟩) hne
  rw [run, List.foldl_append]
  have : ∀ (l : List Act) s, s.calls[t']? = some (Call.grade rj db ids') → (l.foldl step s).calls[t']? = some (.grade rj db ids') := by
    intro l
    induction l with
    | nil => exact fun s h => h
    | cons a l ih => exact fun s h => ih _ (calls_step h)
  exact this _ _ hc

/-! ### Who is to blame -/

theorem settled_err (files : Guid → Option Str) (acts : List Act) :
    (∀ (t : Nat) (ok : Bool), (run files acts).threads[t]? = some (.checking ok) →
      ∃ t', Settled (run files acts) t' (!(run files acts).err)) ∧
    (∀ (t st : Nat) (rj db : Bool) (ids : List (Nat × Lookup)) (rs : List RunCtx),
      (run files acts).calls[t]? = some (.grade rj db ids) → Call.runs (.grade rj db ids) = some rs →
      (run files acts).threads[t]? = some (.replied st) →
      (st = 200 ∧ ∃ t', Settled (run files acts) t' true) ∨ (st = 500 ∧ ∃ t', Settled (run files acts) t' false)) := by
  induction acts using List.reverseRecOn with
  | nil => simp [run]
  | append_singleton acts a ih =>
    obtain ⟨ih1, ih2⟩ := ih
    rw [run_append]
    have hi := inv_run files acts
    have lift : ∀ {ok}, (∃ t', Settled (run files acts) t' ok) → ∃ t', Settled (step (run files acts) a) t' ok :=
      fun ⟨t', h⟩ => ⟨t', h.step⟩
    have lift2 : ∀ {st : Nat}, (st = 200 ∧ ∃ t', Settled (run files acts) t' true) ∨
        (st = 500 ∧ ∃ t', Settled (run files acts) t' false) →
        (st = 200 ∧ ∃ t', Settled (step (run files acts) a) t' true) ∨
        (st = 500 ∧ ∃ t', Settled (step (run files acts) a) t' false) := by
      rintro st (⟨e, h⟩ | ⟨e, h⟩)
      · exact Or.inl ⟨e, lift h⟩
      · exact Or.inr ⟨e, lift h⟩
    cases a with
    | call d =>
      refine ⟨fun t ok h => ?_, fun t st rj db ids rs hc hr h => ?_⟩
      · rcases threads_call_inv h with h | ⟨-, h⟩
        · exact lift (ih1 t ok h)
        · exact absurd h.symm (start_not_checking d ok)
      · rcases calls_call_inv hc with hc0 | ⟨rfl, rfl⟩
        · rcases threads_call_inv h with h | ⟨h, -⟩
          · exact lift2 (ih2 t st rj db ids rs hc0 hr h)
          · have := (List.getElem?_eq_some_iff.1 hc0).1
            have := hi.len
            omega
        · rcases threads_call_inv h with h | ⟨-, h⟩
          · have := (List.getElem?_eq_some_iff.1 h).1
            have := hi.len
            omega
          · have hr' : contexts ids = some rs := hr
            simp only [Call.start, hr'] at h
            cases h
    | step t' ch =>
      cases hth : (run files acts).threads[t']? with
      | none =>
        have e : step (run files acts) (.step t' ch) = run files acts := by simp [step, hth]
        rw [e]
        exact ⟨ih1, ih2⟩
      | some th =>
        have e : step (run files acts) (.step t' ch) = threadStep (run files acts) t' ch th := by simp [step, hth]
        obtain ⟨c, hc⟩ : ∃ c, (run files acts).calls[t']? = some c :=
          ⟨_, List.getElem?_eq_getElem (by rw [hi.len]; exact (List.getElem?_eq_some_iff.1 hth).1)⟩
        have hcalls : (step (run files acts) (.step t' ch)).calls = (run files acts).calls := by
          rw [e]; exact step_calls _ _ _ _
        -- either the shared variable is untouched, or this very handler has settled
        have herr : (step (run files acts) (.step t' ch)).err = (run files acts).err ∨
            ∃ ok, (step (run files acts) (.step t' ch)).err = !ok ∧ Settled (step (run files acts) (.step t' ch)) t' ok := by
          by_cases hg : c.isGrade = true
          · cases c with
            | grade rj db ids =>
              cases hr : Call.runs (.grade rj db ids) with
              | none =>
                have hok := hi.ok t' _ _ hc hth
                simp only [ThreadOk, hr] at hok
                rw [hok.1] at e
                exact Or.inl (by rw [e]; rfl)
              | some rs =>
                rcases step_shape (run files acts) t' ch th with ⟨ok, e'⟩ | ⟨ok, -, e'⟩ | ⟨st, -, e'⟩ | ⟨e', -⟩
                · have htl := (List.getElem?_eq_some_iff.1 hth).1
                  have : (step (run files acts) (.step t' ch)).threads[t']? = some (.checking ok) := by
                    rw [e, e', finish_grade hc rfl]; simp [htl]
                  exact Or.inr ⟨ok, (step_self hc hr hth).1 ok this⟩
                · exact Or.inl (by rw [e, e'])
                · exact Or.inl (by rw [e, e'])
                · exact Or.inl (by rw [e, e'])
            | _ => cases hg
          · refine Or.inl (by rw [e]; refine step_err ?_; rintro ⟨ids, rj, db, hx⟩; rw [hc] at hx; cases hx; exact hg rfl)
        refine ⟨fun t ok h => ?_, fun t st rj db ids rs hc2 hr h => ?_⟩
        · rcases herr with he | ⟨ok', he, hs⟩
          · rw [he]
            by_cases hne : t' = t
            · subst hne
              rcases step_shape (run files acts) t' ch th with ⟨ok', e'⟩ | ⟨ok', rfl, e'⟩ | ⟨st, rfl, e'⟩ | ⟨-, x, e', h1, -⟩
              · rw [e, e'] at h
                unfold finish at h
                have htl := (List.getElem?_eq_some_iff.1 hth).1
                rw [hc] at h
                cases c with
                | grade rj db ids =>
                  cases hr : Call.runs (.grade rj db ids) with
                  | none =>
                    have hok := hi.ok t' _ _ hc hth
                    simp only [ThreadOk, hr] at hok
                    have e2 : threadStep (run files acts) t' ch th = run files acts := by rw [hok.1]; rfl
                    have : (run files acts).threads[t']? = some (.checking ok) := by
                      rw [← e2, e']; unfold finish; rw [hc]; exact h
                    rw [hth, hok.1] at this
                    cases this
                  | some rs =>
                    have hth2 : (step (run files acts) (.step t' ch)).threads[t']? = some (.checking ok) := by
                      rw [e, e']; unfold finish; rw [hc]; exact h
                    obtain ⟨h1, h2⟩ := (step_self (ch := ch) hc hr hth).1 ok hth2
                    rw [← he, h1, Bool.not_not]
                    exact ⟨t', h2⟩
                | _ => simp [htl] at h
              · exact lift (ih1 t' ok' hth)
              · rw [e, e', hth] at h; cases h
              · rw [e, e'] at h
                have htl := (List.getElem?_eq_some_iff.1 hth).1
                simp [htl] at h
                exact absurd h (h1 ok)
            · rw [e, threads_other hne] at h
              exact lift (ih1 t ok h)
          · rw [he, Bool.not_not]; exact ⟨t', hs⟩
        · rw [hcalls] at hc2
          by_cases hne : t' = t
          · subst hne
            rcases (step_self (ch := ch) hc2 hr hth).2 st h with rfl | ⟨⟨ok, rfl⟩, rfl⟩
            · exact lift2 (ih2 t' st rj db ids rs hc2 hr hth)
            · have := lift (ih1 t' ok hth)
              cases hb : (run files acts).err with
              | true => rw [hb] at this; exact Or.inr ⟨rfl, this⟩
              | false => rw [hb] at this; exact Or.inl ⟨rfl, this⟩
          · rw [e, threads_other hne] at h
            exact lift2 (ih2 t st rj db ids rs hc2 hr h)

/-- A wrong answer is always another rejudge request's: 200 without all the runs queued means that all the runs of some
other request were; any other status with all the runs queued means that those of another request were not. -/
theorem C125_blame (files : Guid → Option Str) (acts : List Act) (t st : Nat) (ids : List (Nat × Lookup))
    (ha : Asked (run files acts) t ids) (ht : Answered (run files acts) t st) :
    (st = 200 → ¬ AllQueued (run files acts) t ids →
      ∃ t' ids', t' ≠ t ∧ Asked (run files acts) t' ids' ∧ AllQueued (run files acts) t' ids') ∧
    (st ≠ 200 → AllQueued (run files acts) t ids →
      ∃ t' ids', t' ≠ t ∧ Asked (run files acts) t' ids' ∧ ¬ AllQueued (run files acts) t' ids') := by
  obtain ⟨rj, db, hc⟩ := ha
  cases hr : Call.runs (.grade rj db ids) with
  | none =>
    obtain ⟨rfl, h⟩ := failed_lookup hc hr ht
    exact ⟨fun h => absurd h (by decide), fun _ h' => absurd h' h⟩
  | some rs =>
    have asked : ∀ {t' ok}, Settled (run files acts) t' ok → ∃ ids', Asked (run files acts) t' ids' := by
      rintro t' ok ⟨rj, db, ids, rs, hc, -⟩
      exact ⟨ids, rj, db, hc⟩
    rcases (settled_err files acts).2 t st rj db ids rs hc hr ht with ⟨rfl, t', h⟩ | ⟨rfl, t', h⟩
    · obtain ⟨ids', h'⟩ := asked h
      refine ⟨fun _ hn => ⟨t', ids', ?_, h', (h.allQueued h').2 rfl⟩, fun h => absurd rfl h⟩
      rintro rfl
      exact hn ((h.allQueued ⟨rj, db, hc⟩).2 rfl)
    · obtain ⟨ids', h'⟩ := asked h
      refine ⟨fun h => absurd h (by decide), fun _ hn => ⟨t', ids', ?_, h', fun hq => ?_⟩⟩
      · rintro rfl
        cases (h.allQueued ⟨rj, db, hc⟩).1 hn
      · cases (h.allQueued h').1 hq

/-! ### C125 is false -/

/-- Two rejudge requests: the source of run 9 is missing. -/
def overlap : List Act :=
  [.call (.grade true false [(8, some (80, false))]), .call (.grade true false [(9, some (99, false))]),
   .step 0 .go, .step 0 .go]

/-- Request 1 fails and is answered with 200: nothing of it was queued. -/
theorem C125_false_ok : ∃ acts : List Act,
    Asked (run sampleFiles acts) 1 [(9, some (99, false))] ∧ Answered (run sampleFiles acts) 1 200 ∧
    addedBy (run sampleFiles acts) 1 = [] :=
  ⟨overlap ++ [.step 1 .go, .step 0 .go, .step 1 .go], ⟨true, false, by decide⟩, by unfold Answered; decide, by decide⟩

/-- Request 0 has queued everything and is answered with 500. -/
theorem C125_false_error : ∃ acts : List Act,
    Asked (run sampleFiles acts) 0 [(8, some (80, false))] ∧ Answered (run sampleFiles acts) 0 500 ∧
    AllQueued (run sampleFiles acts) 0 [(8, some (80, false))] :=
  ⟨overlap ++ [.step 0 .go, .step 1 .go, .step 0 .go], ⟨true, false, by decide⟩, by unfold Answered; decide,
    by unfold AllQueued; decide⟩

theorem C125_false : ¬ HonestAnswers := by
  intro h
  obtain ⟨acts, h1, h2, h3⟩ := C125_false_error
  exact absurd ((h _ acts 0 500 _ h1 h2).2 h3) (by decide)

/-- One after the other, the two requests get the right answers; `C125_answer_partial` applies to the first. -/
example : Answered (run sampleFiles (overlap ++ [.step 0 .go, .step 0 .go, .step 1 .go, .step 1 .go])) 0 200 ∧
    Answered (run sampleFiles (overlap ++ [.step 0 .go, .step 0 .go, .step 1 .go, .step 1 .go])) 1 500 := by
  unfold Answered; decide

example : Undisturbed sampleFiles (overlap ++ [.step 0 .go, .step 0 .go]) 0 := by
  intro pre t' c post e hne _ ok
  have hm : Act.step t' c ∈ overlap ++ [.step 0 .go, .step 0 .go] := by rw [e]; simp
  simp [overlap] at hm
  exact absurd hm.1 hne

end Quark.Requests
