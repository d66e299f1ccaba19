import Verif.Delays.Model
import Verif.Lifecycle.Props
import Mathlib.Tactic.SplitIfs

/-!
# C177: what the summaries of delays mean
-/

namespace Quark.Delays

open Lifecycle (State Act Event Thread step_inv countP_goto)

/-! ## Specification -/

/-- How often the log says that attempt `a` was handed to a runner. -/
def handOuts (a : Nat) (log : List (Nat × Event)) : Nat :=
  log.countP fun p => match p.2 with
    | .handed _ b => b == a
    | _ => false

/-- Who was removed when, according to the log. -/
def removals (log : List (Nat × Event)) : List (Nat × Nat) :=
  log.filterMap fun p => match p.2 with
    | .removed r => some (r, p.1)
    | _ => none

/-! ## One step -/

def isAdding (r : Nat) : Thread → Bool
  | .adding q => q == r
  | _ => false

theorem adding_goto {l : List Thread} {t : Nat} {x y : Thread} (h : l[t]? = some y) (r : Nat)
    (hy : isAdding r y = false) (hx : isAdding r x = false) :
    (l.set t x).countP (isAdding r) = l.countP (isAdding r) := by
  have := countP_goto (f := isAdding r) (x := x) h
  simpa [hx, hy] using this

theorem length_removeAttempt (s : State) (a : Nat) : (s.removeAttempt a).runs.length = s.runs.length := by
  have := congrArg List.length (Lifecycle.map_removeAttempt s a (g := fun x : Lifecycle.Run => x.closed) (fun _ => rfl))
  simpa using this

theorem step_adds {m : Int} {s s' : State} {a : Act} {e : Event} (hs : Lifecycle.step m s a = some (s', e))
    (ha : a ≠ .submit) :
    (∀ r, s'.threads.countP (isAdding r) + (placed s a).count r = s.threads.countP (isAdding r)) ∧
    s'.runs.length = s.runs.length ∧ ∀ r ∈ placed s a, e = .queued r := by
  have hset : ∀ (t : Nat) (x y : Thread) (r : Nat), s.threads[t]? = some y → isAdding r y = false →
      isAdding r x = false → (s.threads.set t x).countP (isAdding r) = s.threads.countP (isAdding r) :=
    fun t x y r h hy hx => adding_goto h r hy hx
  unfold Lifecycle.step at hs
  split at hs
  · cases hs
  cases a with
  | submit => exact absurd rfl ha
  | take k =>
    simp only at hs
    split at hs
    · cases hs
    · cases hs; simp [placed, isAdding]
  | upload a =>
    simp only at hs
    split at hs
    · cases hs; simp [placed]
    · split at hs
      · cases hs
      · cases hs; simp [placed, isAdding]
  | fail t =>
    simp only at hs
    split at hs
    · rename_i i ht
      obtain ⟨f, -, hs⟩ := Option.map_eq_some_iff.mp hs
      cases hs
      exact ⟨fun r => by simpa [placed, State.goto] using hset t _ _ r ht rfl rfl, rfl, by simp [placed]⟩
    · rename_i i ht
      obtain ⟨f, -, hs⟩ := Option.map_eq_some_iff.mp hs
      cases hs
      exact ⟨fun r => by simpa [placed, State.goto] using hset t _ _ r ht rfl rfl, rfl, by simp [placed]⟩
    · rename_i q b ht
      cases hs
      exact ⟨fun r => by simpa [placed, State.goto] using hset t _ _ r ht rfl rfl, rfl, by simp [placed]⟩
    · rename_i w q l ht
      cases hs
      exact ⟨fun r => by simpa [placed, State.goto] using hset t _ _ r ht rfl rfl, rfl, by simp [placed]⟩
    · rename_i w q l ht
      cases hs
      exact ⟨fun r => by simpa [placed, State.goto] using hset t _ _ r ht rfl rfl, rfl, by simp [placed]⟩
    · cases hs
  | retry t =>
    simp only at hs
    split at hs
    · rename_i q b ht
      cases hs
      exact ⟨fun r => by simpa [placed, State.goto] using hset t _ _ r ht rfl rfl, rfl, by simp [placed]⟩
    · cases hs
  | judgeError t =>
    simp only at hs
    split at hs
    · rename_i q b ht
      cases hs
      exact ⟨fun r => by simpa [placed, State.goto] using hset t _ _ r ht rfl rfl, rfl, by simp [placed]⟩
    · cases hs
  | step t =>
    simp only at hs
    cases hy : s.threads[t]? with
    | none => simp [hy] at hs
    | some y =>
      rw [hy] at hs
      cases y with
      | adding r =>
        cases hs
        have hpl : placed s (.step t) = [r] := by simp [placed, hy]
        refine ⟨?_, rfl, by rw [hpl]; simp⟩
        intro q
        have := countP_goto (f := isAdding q) (x := .done) hy
        rw [hpl]
        simp only [State.goto, isAdding, List.count_singleton] at this ⊢
        by_cases hq : r = q
        · subst hq; simpa using this
        · simpa [hq] using this
      | getting q =>
        have hpl : placed s (.step t) = [] := by simp [placed, hy]
        simp only at hs
        rw [hpl]
        split at hs
        · cases hs
        · split at hs <;> cases hs <;>
            exact ⟨fun r => by simpa [State.goto, State.modRun] using hset t _ _ r hy rfl rfl, by simp [State.goto, State.modRun], by simp⟩
      | registering q =>
        have hpl : placed s (.step t) = [] := by simp [placed, hy]
        simp only at hs
        rw [hpl]
        split at hs
        · cases hs
        · cases hs
          refine ⟨fun r => ?_, by simp, by simp⟩
          have := hset t .done _ r hy rfl rfl
          simpa [isAdding] using this
      | watchConnect i =>
        have hpl : placed s (.step t) = [] := by simp [placed, hy]
        simp only at hs
        rw [hpl]
        split at hs
        · cases hs
        · split at hs
          · cases hs
            exact ⟨fun r => by simpa [State.goto, State.modRun] using hset t _ _ r hy rfl rfl, rfl, by simp⟩
          · cases hs
      | watchReady i =>
        have hpl : placed s (.step t) = [] := by simp [placed, hy]
        simp only at hs
        rw [hpl]
        split at hs
        · cases hs
        · split at hs
          · cases hs
            exact ⟨fun r => by simpa [State.goto, State.modRun] using hset t _ _ r hy rfl rfl, rfl, by simp⟩
          · cases hs
      | handling q b =>
        have hpl : placed s (.step t) = [] := by simp [placed, hy]
        cases hs
        rw [hpl]
        exact ⟨fun r => by simpa [State.goto, State.modRun] using hset t _ _ r hy rfl rfl, rfl, by simp⟩
      | requeue w q l pc =>
        have hpl : placed s (.step t) = [] := by simp [placed, hy]
        obtain ⟨run, -, hs⟩ := Option.map_eq_some_iff.mp hs
        rw [hpl]
        have key : ∀ (s1 : State) (x : Thread), s1.threads = s.threads → s1.runs.length = s.runs.length →
            (∀ r, isAdding r x = false) → s' = s1.goto t x →
            (∀ r, s'.threads.countP (isAdding r) + ([] : List Nat).count r = s.threads.countP (isAdding r)) ∧
              s'.runs.length = s.runs.length ∧ ∀ r ∈ ([] : List Nat), e = .queued r := by
          rintro s1 x h1 h2 h3 rfl
          refine ⟨fun r => ?_, h2, by simp⟩
          simpa [State.goto, h1] using hset t x _ r hy rfl (h3 r)
        have hmod : ∀ f, (s.modRun q f).runs.length = s.runs.length := fun f => by simp [State.modRun]
        cases pc <;> simp only [Lifecycle.stepRequeue] at hs
        case check => cases hs; exact key s _ rfl rfl (fun r => rfl) rfl
        case callRemove =>
          split at hs
          · cases hs; exact key s _ rfl rfl (fun r => rfl) rfl
          · cases w
            · cases hs; exact key s _ rfl rfl (fun r => rfl) rfl
            · cases hs; exact key { s with crashed := true } _ rfl rfl (fun r => rfl) rfl
        case remove b =>
          cases hs
          exact key _ _ (Lifecycle.threads_removeAttempt s _) (length_removeAttempt s _) (fun r => rfl) rfl
        case readTries => cases hs; exact key s _ rfl rfl (fun r => rfl) rfl
        case writeTries n => cases hs; exact key (s.modRun q _) _ rfl (hmod _) (fun r => rfl) rfl
        case test =>
          cases hs; exact key s _ rfl rfl (fun r => by split <;> rfl) rfl
        case setLast =>
          cases hs
          cases l
          · exact key s _ rfl rfl (fun r => rfl) rfl
          · exact key (s.modRun q _) _ rfl (hmod _) (fun r => rfl) rfl
        case newId => cases hs; exact key { s with lastId := s.lastId + 1 } _ rfl rfl (fun r => rfl) rfl
        case setId b => cases hs; exact key (s.modRun q _) _ rfl (hmod _) (fun r => rfl) rfl
        case enqueue => cases hs; exact key { s with queue := s.queue ++ [q] } _ rfl rfl (fun r => rfl) rfl
      | close w q pc =>
        have hpl : placed s (.step t) = [] := by simp [placed, hy]
        obtain ⟨run, -, hs⟩ := Option.map_eq_some_iff.mp hs
        rw [hpl]
        have key : ∀ (s1 : State) (x : Thread), s1.threads = s.threads → s1.runs.length = s.runs.length →
            (∀ r, isAdding r x = false) → s' = s1.goto t x →
            (∀ r, s'.threads.countP (isAdding r) + ([] : List Nat).count r = s.threads.countP (isAdding r)) ∧
              s'.runs.length = s.runs.length ∧ ∀ r ∈ ([] : List Nat), e = .queued r := by
          rintro s1 x h1 h2 h3 rfl
          refine ⟨fun r => ?_, h2, by simp⟩
          simpa [State.goto, h1] using hset t x _ r hy rfl (h3 r)
        have hmod : ∀ f, (s.modRun q f).runs.length = s.runs.length := fun f => by simp [State.modRun]
        cases pc <;> simp only [Lifecycle.stepClose] at hs
        case remove b =>
          cases hs
          exact key _ _ (Lifecycle.threads_removeAttempt s _) (length_removeAttempt s _) (fun r => rfl) rfl
        case check => cases hs; exact key s _ rfl rfl (fun r => by split <;> rfl) rfl
        all_goals
          try split at hs
          all_goals
            cases hs
            first
              | exact key s _ rfl rfl (fun r => rfl) rfl
              | exact key (s.modRun q _) _ rfl (hmod _) (fun r => rfl) rfl
              | exact key { s with crashed := s.crashed || w } _ rfl rfl (fun r => rfl) rfl
      | done => cases hs

/-! ## Invariant -/

structure Inv (m : Int) (s : Clocked) : Prop where
  reach : Lifecycle.Reach m (s.log.map Prod.snd) s.life
  times : ∀ p ∈ s.log, p.1 ≤ s.now
  sorted : s.log.Pairwise fun p q => p.1 ≤ q.1
  bal : ∀ r, s.life.threads.countP (isAdding r) + s.stamping.count r + (if (s.queueTime r).isSome then 1 else 0) =
    if r < s.life.runs.length then 1 else 0
  placed : ∀ r ∈ s.stamping, ∃ t ≤ s.now, (t, Event.queued r) ∈ s.log
  stamped : ∀ r q, s.queueTime r = some q → q ≤ s.now ∧ s.created r ≤ q ∧ ∃ t ≤ q, (t, Event.queued r) ∈ s.log
  created : ∀ r, r < s.life.runs.length → s.created r ≤ s.now
  waits : ∀ o ∈ s.waits, (∃ h ≤ o.at', (h, Event.handed o.run o.attempt) ∈ s.log) ∧
    (o.at', Event.dropped o.attempt) ∈ s.log ∧ ∀ q, o.since = some q → s.queueTime o.run = some q ∧ q ≤ o.at'
  count : ∀ a, (s.waits.countP (fun o => o.attempt == a) + (if (s.life.mapping a).isSome then 1 else 0) ≤
      handOuts a s.log) ∧
    (0 < handOuts a s.log → 0 < s.waits.countP (fun o => o.attempt == a) + (if (s.life.mapping a).isSome then 1 else 0))
  totals : s.totals = (removals s.log).map fun x => (x.1, x.2 - s.created x.1)

theorem live_handed {a : Nat} {evs : List Event} (h : Lifecycle.live a evs = true) : ∃ r, Event.handed r a ∈ evs := by
  induction evs using List.reverseRecOn with
  | nil => simp [Lifecycle.live] at h
  | append_singleton evs e ih =>
    rw [Lifecycle.live_snoc] at h
    cases e
    case handed r b =>
      simp only [Bool.or_eq_true, beq_iff_eq] at h
      rcases h with h | h
      · obtain ⟨r', hr⟩ := ih h
        exact ⟨r', by simp [hr]⟩
      · subst h; exact ⟨r, by simp⟩
    case dropped b =>
      simp only [Bool.and_eq_true] at h
      obtain ⟨r', hr⟩ := ih h.1
      exact ⟨r', by simp [hr]⟩
    all_goals
      obtain ⟨r', hr⟩ := ih h
      exact ⟨r', by simp [hr]⟩

theorem Inv.init (m : Int) : Inv m {} := by
  constructor <;> first | exact .init | simp [handOuts, removals]

theorem handOuts_snoc (a : Nat) (log : List (Nat × Event)) (t : Nat) (e : Event) :
    handOuts a (log ++ [(t, e)]) = handOuts a log + (match e with | .handed _ b => if b == a then 1 else 0 | _ => 0) := by
  unfold handOuts
  rw [List.countP_append]
  cases e <;> simp [List.countP_cons]

theorem removals_snoc (log : List (Nat × Event)) (t : Nat) (e : Event) :
    removals (log ++ [(t, e)]) = removals log ++ (match e with | .removed r => [(r, t)] | _ => []) := by
  unfold removals
  rw [List.filterMap_append]
  cases e <;> rfl

/-- What is removed from the monitor is reported. -/
theorem removed_spec {m : Int} {s : Clocked} (h : Inv m s) (a : Nat) :
    (s.life.mapping a = none ∧ removed s a = []) ∨ (∃ i r, s.life.mapping a = some i ∧
      removed s a = [{ run := r, attempt := a, since := s.queueTime r, at' := s.now }] ∧
      ∃ t ≤ s.now, (t, Event.handed r a) ∈ s.log) := by
  cases hm : s.life.mapping a with
  | none => exact .inl ⟨rfl, by simp [removed, hm]⟩
  | some i =>
    obtain ⟨own, hid⟩ := h.reach.ids
    obtain ⟨f, hf, hfa⟩ := hid.mapping a i hm
    refine .inr ⟨i, f.run, rfl, by simp [removed, hm, hf], ?_⟩
    have hl : Lifecycle.live a (s.log.map Prod.snd) = true := by rw [hid.live, hm]; rfl
    obtain ⟨r, hr⟩ := live_handed hl
    have h1 := (hid.events _ hr r a rfl).1
    have h2 := (hid.inflights f (List.mem_of_getElem? hf)).1
    rw [hfa] at h2
    obtain ⟨p, hp, hpe⟩ := List.mem_map.1 hr
    refine ⟨p.1, h.times p hp, ?_⟩
    rw [← h2, h1, ← hpe]
    exact hp

theorem Inv.record {m : Int} {s : Clocked} (h : Inv m s) {a : Act} {l : State} {e : Event}
    (hs : Lifecycle.step m s.life a = some (l, e)) (ha : a ≠ .submit) : Inv m (record s a l e) := by
  have hreach : Lifecycle.Reach m ((s.log ++ [(s.now, e)]).map Prod.snd) l := by
    rw [List.map_append]
    exact .step h.reach hs
  obtain ⟨hadd, hlen, hpl⟩ := step_adds hs ha
  obtain ⟨own, hid⟩ := hreach.ids
  obtain ⟨own0, hid0⟩ := h.reach.ids
  have hlive : ∀ b, (l.mapping b).isSome = match e with
      | .handed _ a' => (s.life.mapping b).isSome || a' == b
      | .dropped a' => (s.life.mapping b).isSome && !(a' == b)
      | _ => (s.life.mapping b).isSome := by
    intro b
    rw [← hid.live b, List.map_append]
    show Lifecycle.live b (s.log.map Prod.snd ++ [e]) = _
    rw [Lifecycle.live_snoc, hid0.live b]
    cases e <;> rfl
  refine { reach := hreach, times := ?_, sorted := ?_, bal := ?_, placed := ?_, stamped := ?_, created := ?_, waits := ?_, count := ?_, totals := ?_ }
  · intro p hp
    rcases List.mem_append.1 hp with hp | hp
    · exact h.times p hp
    · rw [List.mem_singleton.1 hp]; exact Nat.le_refl _
  · refine List.pairwise_append.2 ⟨h.sorted, by simp, fun p hp q hq => ?_⟩
    rw [List.mem_singleton.1 hq]; exact h.times p hp
  · intro r
    have h1 := h.bal r
    have h2 := hadd r
    show l.threads.countP (isAdding r) + (s.stamping ++ Delays.placed s.life a).count r + _ = if r < l.runs.length then 1 else 0
    rw [List.count_append, hlen]
    show _ + _ + (if (s.queueTime r).isSome then 1 else 0) = _
    omega
  · intro r hr
    rcases List.mem_append.1 hr with hr | hr
    · obtain ⟨t, ht, hm⟩ := h.placed r hr
      exact ⟨t, ht, List.mem_append_left _ hm⟩
    · exact ⟨s.now, Nat.le_refl _, by simp [Delays.record, hpl r hr]⟩
  · intro r q hq
    obtain ⟨h1, h2, t, ht, hm⟩ := h.stamped r q hq
    exact ⟨h1, h2, t, ht, List.mem_append_left _ hm⟩
  · intro r hr
    exact h.created r (by rw [← hlen]; exact hr)
  · intro o ho
    rcases List.mem_append.1 ho with ho | ho
    · obtain ⟨⟨t, ht, hm⟩, h2, h3⟩ := h.waits o ho
      exact ⟨⟨t, ht, List.mem_append_left _ hm⟩, List.mem_append_left _ h2, h3⟩
    · have ho' : ∃ b, e = .dropped b ∧ o ∈ removed s b := by
        cases e <;> simp only [List.not_mem_nil] at ho
        exact ⟨_, rfl, ho⟩
      obtain ⟨b, rfl, hob⟩ := ho'
      rcases removed_spec h b with ⟨-, hr⟩ | ⟨i, r, -, hr, t, ht, hm⟩
      · rw [hr] at hob; cases hob
      · rw [hr] at hob
        rw [List.mem_singleton.1 hob]
        exact ⟨⟨t, ht, List.mem_append_left _ hm⟩, by simp [Delays.record], fun q hq => ⟨hq, (h.stamped r q hq).1⟩⟩
  · intro b
    have h1 := h.count b
    have h2 := hlive b
    show (List.countP _ (s.waits ++ _) + (if (l.mapping b).isSome then 1 else 0) ≤ handOuts b (s.log ++ [(s.now, e)])) ∧
      (0 < handOuts b (s.log ++ [(s.now, e)]) → 0 < List.countP _ (s.waits ++ _) + (if (l.mapping b).isSome then 1 else 0))
    rw [handOuts_snoc, h2, List.countP_append]
    cases e <;> simp only [List.countP_nil, Nat.add_zero]
    case handed q c =>
      by_cases hc : c = b
      · subst hc; simp; omega
      · simp [hc]; exact h1
    case dropped c =>
      by_cases hc : c = b
      · subst hc
        rcases removed_spec h c with ⟨hm, hr⟩ | ⟨i, r, hm, hr, -⟩
        · rw [hr]; simp only [hm] at h1 ⊢; simpa using h1
        · rw [hr]; simp only [hm] at h1 ⊢; simpa using h1
      · have hz : (removed s c).countP (fun o => o.attempt == b) = 0 := by
          rcases removed_spec h c with ⟨hm, hr⟩ | ⟨i, r, hm, hr, -⟩ <;> rw [hr] <;> simp [hc]
        rw [hz]; simp [hc]; simpa using h1
    all_goals exact h1
  · show s.totals ++ _ = (removals (s.log ++ [(s.now, e)])).map _
    rw [removals_snoc, List.map_append, h.totals]
    congr 1
    cases e <;> rfl

theorem Inv.submit {m : Int} {s : Clocked} (h : Inv m s) (ago : Nat) {l : State} {e : Event}
    (hs : Lifecycle.step m s.life .submit = some (l, e)) :
    Inv m { Delays.record s .submit l e with
      created := Function.update s.created s.life.runs.length (s.now - ago) } := by
  have hreach : Lifecycle.Reach m ((s.log ++ [(s.now, e)]).map Prod.snd) l := by
    rw [List.map_append]
    exact .step h.reach hs
  obtain ⟨he, hth, hru, hma⟩ : e = .submitted s.life.runs.length ∧
      l.threads = s.life.threads ++ [.adding s.life.runs.length] ∧
      l.runs.length = s.life.runs.length + 1 ∧ l.mapping = s.life.mapping := by
    unfold Lifecycle.step at hs
    split at hs
    · cases hs
    · cases hs; simp
  subst he
  have hcr : ∀ r, r ≠ s.life.runs.length →
      Function.update s.created s.life.runs.length (s.now - ago) r = s.created r :=
    fun r hr => Function.update_of_ne hr _ _
  refine { reach := hreach, times := ?_, sorted := ?_, bal := ?_, placed := ?_, stamped := ?_, created := ?_, waits := ?_, count := ?_, totals := ?_ }
  · intro p hp
    rcases List.mem_append.1 hp with hp | hp
    · exact h.times p hp
    · rw [List.mem_singleton.1 hp]; exact Nat.le_refl _
  · refine List.pairwise_append.2 ⟨h.sorted, by simp, fun p hp q hq => ?_⟩
    rw [List.mem_singleton.1 hq]; exact h.times p hp
  · intro r
    have h1 := h.bal r
    show l.threads.countP (isAdding r) + (s.stamping ++ []).count r + (if (s.queueTime r).isSome then 1 else 0) =
      if r < l.runs.length then 1 else 0
    rw [hth, hru, List.countP_append, List.append_nil]
    have hone : [Thread.adding s.life.runs.length].countP (isAdding r) = if s.life.runs.length = r then 1 else 0 := by
      simp [isAdding, List.countP_cons]
    rw [hone]
    generalize (if (s.queueTime r).isSome then 1 else 0) = z at h1 ⊢
    by_cases hr : s.life.runs.length = r
    · rw [if_neg (by omega)] at h1
      rw [if_pos hr, if_pos (by omega)]; omega
    · by_cases hlt : r < s.life.runs.length
      · rw [if_pos hlt] at h1
        rw [if_neg hr, if_pos (by omega)]; omega
      · rw [if_neg hlt] at h1
        rw [if_neg hr, if_neg (by omega)]; omega
  · intro r hr
    rcases List.mem_append.1 hr with hr | hr
    · obtain ⟨t, ht, hm⟩ := h.placed r hr
      exact ⟨t, ht, List.mem_append_left _ hm⟩
    · cases hr
  · intro r q hq
    obtain ⟨h1, h2, t, ht, hm⟩ := h.stamped r q hq
    refine ⟨h1, ?_, t, ht, List.mem_append_left _ hm⟩
    show Function.update s.created s.life.runs.length (s.now - ago) r ≤ q
    rw [hcr]
    · exact h2
    · rintro rfl
      have := h.bal s.life.runs.length
      have hq' : s.queueTime s.life.runs.length = some q := hq
      simp [hq'] at this
  · intro r hr
    show Function.update s.created s.life.runs.length (s.now - ago) r ≤ s.now
    by_cases hl : r = s.life.runs.length
    · subst hl; rw [Function.update_self]; omega
    · rw [hcr r hl]
      exact h.created r (by have : r < l.runs.length := hr; omega)
  · intro o ho
    rcases List.mem_append.1 ho with ho | ho
    · obtain ⟨⟨t, ht, hm⟩, h2, h3⟩ := h.waits o ho
      exact ⟨⟨t, ht, List.mem_append_left _ hm⟩, List.mem_append_left _ h2, h3⟩
    · cases ho
  · intro b
    have h1 := h.count b
    show (List.countP _ (s.waits ++ []) + (if (l.mapping b).isSome then 1 else 0) ≤ handOuts b (s.log ++ [(s.now, _)])) ∧
      (0 < handOuts b (s.log ++ [(s.now, _)]) → 0 < List.countP _ (s.waits ++ []) + (if (l.mapping b).isSome then 1 else 0))
    rw [handOuts_snoc, hma, List.append_nil]
    exact h1
  · show s.totals ++ [] = (removals (s.log ++ [(s.now, _)])).map
      fun x => (x.1, x.2 - Function.update s.created s.life.runs.length (s.now - ago) x.1)
    rw [removals_snoc, List.append_nil, List.append_nil, h.totals]
    refine List.map_congr_left fun x hx => ?_
    rw [hcr]
    intro hx1
    have hone := h.reach.once.removed x.1
    have hmem : Event.removed x.1 ∈ s.log.map Prod.snd := by
      obtain ⟨p, hp, hpx⟩ := List.mem_filterMap.1 hx
      obtain ⟨t, e⟩ := p
      cases e <;> simp only [reduceCtorEq, Option.some.injEq] at hpx
      subst hpx
      exact List.mem_map.2 ⟨_, hp, rfl⟩
    have := List.count_pos_iff.2 hmem
    have hc : s.life.isClosed x.1 = false := by
      unfold State.isClosed
      rw [hx1]; simp
    rw [hc] at hone
    simp at hone
    omega

theorem Inv.step {m : Int} {s s' : Clocked} {act : TAct} (h : Inv m s) (hs : tstep m s act = some s') : Inv m s' := by
  cases act with
  | tick d =>
    cases hs
    refine { h with times := ?_, placed := ?_, stamped := ?_, created := ?_ }
    · intro p hp; exact Nat.le_trans (h.times p hp) (Nat.le_add_right _ _)
    · intro r hr
      obtain ⟨t, ht, hm⟩ := h.placed r hr
      exact ⟨t, Nat.le_trans ht (Nat.le_add_right _ _), hm⟩
    · intro r q hq
      obtain ⟨h1, h2⟩ := h.stamped r q hq
      exact ⟨Nat.le_trans h1 (Nat.le_add_right _ _), h2⟩
    · intro r hr; exact Nat.le_trans (h.created r hr) (Nat.le_add_right _ _)
  | submit ago =>
    obtain ⟨p, hp, rfl⟩ := Option.map_eq_some_iff.mp hs
    exact h.submit ago hp
  | life a =>
    have ha : a ≠ .submit := by rintro rfl; cases hs
    have hs' : (Lifecycle.step m s.life a).map (fun p => Delays.record s a p.1 p.2) = some s' := by
      cases a <;> first | exact absurd rfl ha | exact hs
    obtain ⟨p, hp, rfl⟩ := Option.map_eq_some_iff.mp hs'
    exact h.record hp ha
  | stamp r =>
    simp only [tstep] at hs
    split at hs
    · rename_i hr
      cases hs
      have hcnt := List.count_pos_iff.2 hr
      have hb := h.bal r
      have hq0 : s.queueTime r = none := by
        cases hq : s.queueTime r with
        | none => rfl
        | some q => rw [hq] at hb; simp at hb; split at hb <;> omega
      have hlt : r < s.life.runs.length := by
        by_contra hn
        rw [if_neg hn] at hb; omega
      refine { h with bal := ?_, placed := ?_, stamped := ?_, waits := ?_ }
      · intro q
        have h1 := h.bal q
        by_cases hq : q = r
        · subst hq
          simp only [Function.update_self, List.count_erase_self, hq0] at h1 ⊢
          simp at h1 ⊢
          omega
        · simp only [Function.update_of_ne hq, List.count_erase_of_ne hq]
          exact h1
      · intro q hq
        exact h.placed q (List.mem_of_mem_erase hq)
      · intro q u hu
        by_cases hq : q = r
        · subst hq
          simp only [Function.update_self, Option.some.injEq] at hu
          subst hu
          exact ⟨Nat.le_refl _, h.created _ hlt, h.placed _ hr⟩
        · simp only [Function.update_of_ne hq] at hu
          exact h.stamped q u hu
      · intro o ho
        obtain ⟨h1, h2, h3⟩ := h.waits o ho
        refine ⟨h1, h2, fun q hq => ?_⟩
        obtain ⟨h4, h5⟩ := h3 q hq
        refine ⟨?_, h5⟩
        have hne : o.run ≠ r := by
          rintro heq; rw [heq, hq0] at h4; cases h4
        simp only [Function.update_of_ne hne]
        exact h4
    · cases hs

theorem Reach.inv {m : Int} {s : Clocked} (h : Reach m s) : Inv m s := by
  induction h with
  | init => exact .init m
  | step _ hs ih => exact ih.step hs

/-! ## C177 -/

/-- C177 (what is reported): one value for each attempt that left, never more than the attempt was handed out; an
attempt that was handed out once and is no longer in flight has exactly one. -/
theorem C177_one_each {m : Int} {s : Clocked} (h : Reach m s) (a : Nat) :
    s.waits.countP (fun o => o.attempt == a) ≤ handOuts a s.log ∧
    (handOuts a s.log = 1 → s.life.mapping a = none → s.waits.countP (fun o => o.attempt == a) = 1) := by
  obtain ⟨h1, h2⟩ := h.inv.count a
  refine ⟨by omega, fun h3 h4 => ?_⟩
  have hz : (if (s.life.mapping a).isSome then 1 else 0) = 0 := by rw [h4]; rfl
  rw [hz] at h1 h2
  omega

/-- C177 (what the values are): what is reported when an attempt leaves is the time since the run was put into a queue
for the first time, however often it was handed out meanwhile: it includes the time the runner had this attempt. -/
theorem C177_value_partial {m : Int} {s : Clocked} (h : Reach m s) {o : Wait} (ho : o ∈ s.waits) :
    (o.at', Event.dropped o.attempt) ∈ s.log ∧
    (∃ t, t ≤ o.at' ∧ (t, Event.handed o.run o.attempt) ∈ s.log ∧
      ∀ q, o.since = some q → q ≤ t → o.at' - t ≤ o.delta) ∧
    (∀ q, o.since = some q → o.delta = o.at' - q ∧ s.created o.run ≤ q ∧ ∃ t ≤ q, (t, Event.queued o.run) ∈ s.log) ∧
    (o.since = none → o.delta = 2 ^ 63 - 1) := by
  obtain ⟨⟨t, ht, hm⟩, h2, h3⟩ := h.inv.waits o ho
  refine ⟨h2, ⟨t, ht, hm, ?_⟩, ?_, ?_⟩
  · intro q hq hqt
    rw [Wait.delta, hq]
    show o.at' - t ≤ o.at' - q
    omega
  · intro q hq
    obtain ⟨h4, h5⟩ := h3 q hq
    obtain ⟨h6, h7, h8⟩ := h.inv.stamped _ _ h4
    exact ⟨by rw [Wait.delta, hq], h7, h8⟩
  · intro hn
    rw [Wait.delta, hn]
    rfl

/-- C177 (retries): the values of two attempts of one run differ by the time between their ends, so the later one
contains all of the earlier one. -/
theorem C177_cumulative {m : Int} {s : Clocked} (h : Reach m s) {o p : Wait} (ho : o ∈ s.waits) (hp : p ∈ s.waits)
    (hr : o.run = p.run) (hos : o.since ≠ none) (hps : p.since ≠ none) (hle : o.at' ≤ p.at') :
    p.delta = o.delta + (p.at' - o.at') := by
  obtain ⟨q, hq⟩ := Option.ne_none_iff_exists'.1 hos
  obtain ⟨u, hu⟩ := Option.ne_none_iff_exists'.1 hps
  obtain ⟨-, -, h1⟩ := h.inv.waits o ho
  obtain ⟨-, -, h2⟩ := h.inv.waits p hp
  obtain ⟨h3, h4⟩ := h1 q hq
  obtain ⟨h5, h6⟩ := h2 u hu
  rw [hr, h5] at h3
  cases h3
  rw [Wait.delta, Wait.delta, hq, hu]
  show p.at' - q = o.at' - q + (p.at' - o.at')
  omega

/-- C177 (the total): `grader_queue_delay_seconds` has one value per run that left the grader, the time since the run
was created. No run has two. -/
theorem C177_total {m : Int} {s : Clocked} (h : Reach m s) :
    s.totals = (removals s.log).map (fun x => (x.1, x.2 - s.created x.1)) ∧ ∀ r, (s.totals.map Prod.fst).count r ≤ 1 := by
  refine ⟨h.inv.totals, fun r => ?_⟩
  rw [h.inv.totals, List.map_map]
  have h1 := h.inv.reach.once.removed r
  have key : ∀ log : List (Nat × Event), ((removals log).map Prod.fst).count r = (log.map Prod.snd).count (.removed r) := by
    intro log
    induction log with
    | nil => rfl
    | cons p log ih =>
      obtain ⟨t, e⟩ := p
      have : removals ((t, e) :: log) = (match e with | .removed r => [(r, t)] | _ => []) ++ removals log := by
        cases e <;> rfl
      rw [this, List.map_append, List.count_append, ih, List.map_cons, List.count_cons]
      cases e <;> simp [List.count_cons]
      omega
  show ((removals s.log).map Prod.fst).count r ≤ 1
  rw [key]
  split at h1 <;> omega

/-! ### What is false -/

/-- A schedule, as an execution. -/
def texec (m : Int) (acts : List TAct) : Option Clocked := acts.foldl (fun acc a => acc.bind fun s => tstep m s a) (some {})

theorem reach_of_texec {m : Int} (acts : List TAct) : ∀ {s : Clocked}, texec m acts = some s → Reach m s := by
  induction acts using List.reverseRecOn with
  | nil => intro s h; cases h; exact .init
  | append_singleton acts a ih =>
    intro s h
    rw [show texec m (acts ++ [a]) = (texec m acts).bind fun s => tstep m s a by simp [texec, List.foldl_append]] at h
    obtain ⟨s0, h0, h1⟩ := Option.bind_eq_some_iff.mp h
    exact .step (ih h0) h1

/-- Run 0 is added and handed to a runner as attempt 1, all at time 0. -/
def quick : List TAct :=
  [.submit 0, .life (.step 0), .stamp 0, .life (.take 0), .life (.step 1), .life (.step 1)]

/-- The runner uploads its result `d` later. -/
def slow (d : Nat) : List TAct :=
  quick ++ [.tick d, .life (.upload 1)] ++ List.replicate 6 (.life (.step 3))

/-- When run `r` was put into a queue, and when it was taken out. -/
def queuedTimes (r : Nat) (log : List (Nat × Event)) : List Nat := (log.filter fun p => p.2 == .queued r).map Prod.fst
def takenTimes (r : Nat) (log : List (Nat × Event)) : List Nat := (log.filter fun p => p.2 == .taken r).map Prod.fst

/-- C177 in full: every value reported for a run is the time it waited in a queue on one of the occasions when it was
put there. -/
def MeasuresWaiting : Prop := ∀ (m : Int) (s : Clocked), Reach m s → ∀ o ∈ s.waits,
  ∃ p ∈ (queuedTimes o.run s.log).zip (takenTimes o.run s.log), o.delta = p.2 - p.1

/-- The value is not the time the run waited. The run below is taken from the queue the moment it is put there, and
reported with the time the runner took for it, whatever that is. -/
theorem C177_grading_counts (d : Nat) : ∃ s o, Reach 3 s ∧ s.waits = [o] ∧ o.run = 0 ∧ o.delta = d ∧
    queuedTimes 0 s.log = [0] ∧ takenTimes 0 s.log = [0] := by
  obtain ⟨s, hs⟩ : ∃ s, texec 3 (slow d) = some s := ⟨_, rfl⟩
  refine ⟨s, { run := 0, attempt := 1, since := some 0, at' := 0 + d }, reach_of_texec _ hs, ?_, rfl, ?_, ?_, ?_⟩
  · cases hs; rfl
  · show 0 + d - 0 = d; omega
  · cases hs; rfl
  · cases hs; rfl

/-- C177 is false. -/
theorem C177_false : ¬ MeasuresWaiting := by
  intro h
  obtain ⟨s, o, hr, hw, h0, hd, hq, ht⟩ := C177_grading_counts 1
  obtain ⟨p, hp, hpd⟩ := h 3 s hr o (by simp [hw])
  rw [h0, hq, ht] at hp
  simp at hp
  subst hp
  omega

/-- The first attempt fails after `d`, the run is at once taken out again, and the second attempt takes `e`. -/
def again (d e : Nat) : List TAct :=
  quick ++ [.tick d, .life (.upload 1), .life (.retry 3)] ++ List.replicate 10 (.life (.step 3)) ++
    [.life (.take 0), .life (.step 4), .life (.step 4), .tick e, .life (.upload 2)] ++ List.replicate 6 (.life (.step 6))

/-- After a retry the first attempt is counted a second time, and so is all the time between (`C177_cumulative`): two
attempts of five and seven seconds are reported as five and twelve seconds of waiting, though the run never waited. -/
theorem C177_retry_counts_twice : ∃ s, Reach 3 s ∧ s.waits.map Wait.delta = [5000000000, 12000000000] ∧
    queuedTimes 0 s.log = [0, 5000000000] ∧ takenTimes 0 s.log = [0, 5000000000] := by
  have h : (texec 3 (again 5000000000 7000000000)).map (fun s =>
      (s.waits.map Wait.delta, queuedTimes 0 s.log, takenTimes 0 s.log)) =
      some ([5000000000, 12000000000], [0, 5000000000], [0, 5000000000]) := by decide +kernel
  obtain ⟨s, hs, he⟩ := Option.map_eq_some_iff.mp h
  simp only [Prod.mk.injEq] at he
  exact ⟨s, reach_of_texec _ hs, he.1, he.2.1, he.2.2⟩

/-- A runner that is fast enough: it takes the run, and its upload ends, before `AddRun` notes the time. -/
def early : List TAct :=
  [.submit 0, .life (.step 0), .life (.take 0), .life (.step 1), .life (.step 1), .life (.upload 1)] ++
    List.replicate 6 (.life (.step 3))

/-- Then 292 years are reported. -/
theorem C177_not_noted : ∃ s o, Reach 3 s ∧ s.waits = [o] ∧ o.delta = 2 ^ 63 - 1 ∧ s.now = 0 := by
  obtain ⟨s, hs⟩ : ∃ s, texec 3 early = some s := ⟨_, rfl⟩
  refine ⟨s, { run := 0, attempt := 1, since := none, at' := 0 }, reach_of_texec _ hs, ?_, rfl, ?_⟩
  · cases hs; rfl
  · cases hs; rfl

/-! ### The theorems above are about executions like these -/

example : ∃ s, Reach 3 s ∧ s.waits.length = 2 ∧ handOuts 1 s.log = 1 ∧ s.life.mapping 1 = none ∧
    s.waits.countP (fun o => o.attempt == 1) = 1 := by
  obtain ⟨s, hs⟩ : ∃ s, texec 3 (again 5 7) = some s := ⟨_, rfl⟩
  have hr := reach_of_texec _ hs
  have h1 : handOuts 1 s.log = 1 := by cases hs; rfl
  have h2 : s.life.mapping 1 = none := by cases hs; rfl
  exact ⟨s, hr, by cases hs; rfl, h1, h2, (C177_one_each hr 1).2 h1 h2⟩

example : ∃ s o p, Reach 3 s ∧ s.waits = [o, p] ∧ p.delta = o.delta + 7 := by
  obtain ⟨s, hs⟩ : ∃ s, texec 3 (again 5 7) = some s := ⟨_, rfl⟩
  have hr := reach_of_texec _ hs
  have hw : s.waits = [⟨0, 1, some 0, 5⟩, ⟨0, 2, some 0, 12⟩] := by cases hs; rfl
  refine ⟨s, _, _, hr, hw, ?_⟩
  exact C177_cumulative hr (o := ⟨0, 1, some 0, 5⟩) (p := ⟨0, 2, some 0, 12⟩) (by simp [hw]) (by simp [hw]) rfl
    (by simp) (by simp) (by decide)

example : ∃ s, Reach 3 s ∧ s.totals = [(0, 16)] := by
  obtain ⟨s, hs⟩ : ∃ s, texec 3 ([.tick 9, .submit 4] ++ (slow 5).drop 1 ++ List.replicate 2 (.life (.step 3)) ++
    [.tick 7] ++ List.replicate 3 (.life (.step 3))) = some s := ⟨_, rfl⟩
  exact ⟨s, reach_of_texec _ hs, by cases hs; rfl⟩

end Quark.Delays
