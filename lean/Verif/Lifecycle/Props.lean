import Verif.Lifecycle.OrderlyAll
import Mathlib.Data.List.Induction

/-!
# C24-C29, C66: the life of a run

`Reach m evs s`: with `MaxGradeRetries = m`, some interleaving of goroutines, network and clock makes
the events `evs` visible and leads to `s`. `ReachOrderly m evs s`: the same for interleavings in which
every timeout and every end of an upload finds its attempt registered and nobody else requeuing or
closing the run (`Orderly`). What fails outside these is shown by concrete executions.
-/

namespace Quark.Lifecycle

/-- A schedule, as an execution. -/
def exec (m : Int) : List Act → Option (List Event × State) :=
  fun acts => acts.foldl (fun acc a => acc.bind fun p => (step m p.2 a).map fun q => (p.1 ++ [q.2], q.1))
    (some ([], {}))

theorem exec_snoc {m : Int} {acts : List Act} {a : Act} :
    exec m (acts ++ [a]) = (exec m acts).bind fun p => (step m p.2 a).map fun q => (p.1 ++ [q.2], q.1) := by
  simp [exec, List.foldl_append]

theorem reach_of_exec {m : Int} {acts : List Act} {evs : List Event} {s : State}
    (h : exec m acts = some (evs, s)) : Reach m evs s := by
  induction acts using List.reverseRecOn generalizing evs s with
  | nil => cases h; exact .init
  | append_singleton acts a ih =>
    rw [exec_snoc] at h
    obtain ⟨p, hp, h⟩ := Option.bind_eq_some_iff.mp h
    obtain ⟨q, hq, h⟩ := Option.map_eq_some_iff.mp h
    cases h
    exact .step (ih (evs := p.1) (s := p.2) hp) hq

/-- Whether an event is not part of a race, as a test. -/
def orderlyTest (s : State) : Event → Bool
  | .uploaded r a | .failed r a | .judgeError r a | .timedOut r a =>
    (s.mapping a).isSome && s.threads.all fun x => !x.finishing r
  | _ => true

theorem orderlyTest_iff {s : State} {e : Event} : orderlyTest s e = true ↔ Orderly s e := by
  cases e <;> simp [orderlyTest, Orderly]

/-- A schedule, as an orderly execution. -/
def execOrderly (m : Int) : List Act → Option (List Event × State) :=
  fun acts => acts.foldl (fun acc a => acc.bind fun p => (step m p.2 a).bind fun q =>
    if orderlyTest p.2 q.2 then some (p.1 ++ [q.2], q.1) else none) (some ([], {}))

theorem reachOrderly_of_exec {m : Int} {acts : List Act} {evs : List Event} {s : State}
    (h : execOrderly m acts = some (evs, s)) : ReachOrderly m evs s := by
  induction acts using List.reverseRecOn generalizing evs s with
  | nil => cases h; exact .init
  | append_singleton acts a ih =>
    rw [show execOrderly m (acts ++ [a]) = (execOrderly m acts).bind fun p => (step m p.2 a).bind fun q =>
      if orderlyTest p.2 q.2 then some (p.1 ++ [q.2], q.1) else none by
        simp [execOrderly, List.foldl_append]] at h
    obtain ⟨p, hp, h⟩ := Option.bind_eq_some_iff.mp h
    obtain ⟨q, hq, h⟩ := Option.bind_eq_some_iff.mp h
    split_ifs at h with ho
    cases h
    exact .step (ih (evs := p.1) (s := p.2) hp) hq (orderlyTest_iff.mp ho)

/-! ## C26 -/

/-- The flags of a run that are swapped once, with the event that tells. -/
inductive Flag where
  | running | closed

def Flag.get : Flag → Run → Bool
  | .running => Run.running
  | .closed => Run.closed

def Flag.event : Flag → Nat → Event
  | .running => .running
  | .closed => .closed

def State.flag (s : State) (k : Flag) (r : Nat) : Bool := (s.runs[r]?.map k.get).getD false

theorem flag_step {m : Int} {evs : List Event} {s s' : State} {e : Event} (k : Flag)
    (hs : Step m s s' e) (h : ∀ r, evs.count (k.event r) = if s.flag k r then 1 else 0) (q : Nat) :
    (evs ++ [e]).count (k.event q) = if s'.flag k q then 1 else 0 := by
  have key : e ≠ k.event q → s'.flag k q = s.flag k q →
      (evs ++ [e]).count (k.event q) = if s'.flag k q then 1 else 0 := by
    intro he hr
    rw [hr, List.count_append, List.count_singleton, h q]
    simp [he]
  have key' : e ≠ k.event q → s'.runs.map k.get = s.runs.map k.get →
      (evs ++ [e]).count (k.event q) = if s'.flag k q then 1 else 0 := by
    intro he hr
    refine key he ?_
    unfold State.flag
    rw [← List.getElem?_map, hr, List.getElem?_map]
  cases hs with
  | submit =>
    refine key (by cases k <;> simp [Flag.event]) ?_
    unfold State.flag
    by_cases hlt : q < s.runs.length
    · simp only [List.getElem?_append_left hlt]
    · have h1 : s.runs[q]? = none := by simp; omega
      simp only [List.getElem?_append_right (Nat.le_of_not_lt hlt), h1]
      cases hq : q - s.runs.length with
      | zero => cases k <;> rfl
      | succ n => rfl
  | take k' r hk => exact key' (by cases k <;> simp [Flag.event]) rfl
  | rejected a ha => exact key' (by cases k <;> simp [Flag.event]) rfl
  | resolved a i f ha hf => exact key' (by cases k <;> simp [Flag.event]) rfl
  | quiet t y x e ht hq => exact key' (by cases k <;> cases hq <;> simp [Flag.event]) rfl
  | write t y r f x e ht hw =>
    have hset : ∀ run, s.runs[r]? = some run → k.get run = false → e = k.event r → k.get (f run) = true →
        (∀ p, p ≠ r → e ≠ k.event p) →
        (evs ++ [e]).count (k.event q) = if ((s.modRun r f).goto t x).flag k q then 1 else 0 := by
      intro run hrun h1 h2 h3 h4
      by_cases hqr : q = r
      · subst hqr
        have := h q
        simp only [State.flag, hrun, Option.map_some, Option.getD_some, h1] at this
        rw [List.count_append, this, h2]
        simp [State.flag, State.modRun, State.goto, List.getElem?_modify, hrun, h3]
      · refine key (h4 q hqr) ?_
        simp [State.flag, State.modRun, State.goto, List.getElem?_modify, Ne.symm hqr]
    cases k <;> cases hw <;>
      first
      | exact key' (by simp [Flag.event]) (map_modify (fun _ => rfl))
      | (rename_i run hr hrun; exact hset run hrun hr rfl rfl (by simp [Flag.event, eq_comm]))
  | crash t y r e run ht hrun hmon hc =>
    exact key' (by rcases hc with ⟨_, _, rfl⟩ | ⟨_, rfl⟩ <;> cases k <;> simp [Flag.event]) rfl
  | clPanic t y r run ht hrun hmon hc => exact key' (by cases k <;> simp [Flag.event]) rfl
  | rqRemove t w r l a ht =>
    exact key' (by cases k <;> simp [Flag.event]) (map_removeAttempt s a (fun _ => by cases k <;> rfl))
  | clRemove t w r a ht =>
    exact key' (by cases k <;> simp [Flag.event]) (map_removeAttempt s a (fun _ => by cases k <;> rfl))
  | newId t w r l ht => exact key' (by cases k <;> simp [Flag.event]) rfl
  | add t r ht => exact key' (by cases k <;> simp [Flag.event]) rfl
  | enqueue t w r l ht => exact key' (by cases k <;> simp [Flag.event]) rfl
  | register t r run ht hrun =>
    exact key' (by cases k <;> simp [Flag.event]) (map_modify (fun _ => by cases k <;> rfl))
  | connect t i f ht hf => exact key' (by cases k <;> simp [Flag.event]) rfl

theorem Reach.flag {m : Int} {evs : List Event} {s : State} (h : Reach m evs s) (k : Flag) :
    ∀ r, evs.count (k.event r) = if s.flag k r then 1 else 0 := by
  induction h with
  | init => intro r; simp [State.flag]
  | step _ hs ih => exact flag_step k (step_inv hs).1 ih

/-- C26. Whatever the interleaving, the timeouts, the uploads and the failures, for every run: its
Running and Ready channels are each closed at most once (a second close would panic), it is handed to
the post-processor at most once, its input is released at most once and it is reported as removed at
most once, and none of the last four happens before it was closed. -/
theorem C26_finalized_once {m : Int} {evs : List Event} {s : State} (h : Reach m evs s) (r : Nat) :
    evs.count (.running r) ≤ 1 ∧
    evs.count (.ready r) ≤ evs.count (.closed r) ∧
    evs.count (.posted r) ≤ evs.count (.closed r) ∧
    evs.count (.released r) ≤ evs.count (.closed r) ∧
    evs.count (.removed r) ≤ evs.count (.closed r) ∧
    evs.count (.closed r) ≤ 1 := by
  have h1 := h.flag .running r
  have h2 := h.flag .closed r
  have h3 : s.flag .closed r = s.isClosed r := rfl
  have h4 := h.once.shot
  simp only [Flag.event, h3] at h1 h2
  rw [h2]
  refine ⟨?_, ?_, ?_, ?_, ?_, ?_⟩
  · rw [h1]; split_ifs <;> simp
  · have := h4 .ready r; simp only [Shot.event] at this; omega
  · have := h4 .posted r; simp only [Shot.event] at this; omega
  · have := h4 .released r; simp only [Shot.event] at this; omega
  · have := h4 .removed r; simp only [Shot.event] at this; omega
  · split_ifs <;> simp

/-! ## C28 -/

/-- C28. The gauge kept by the event processor, submitted runs minus removed runs, is the number of runs that
are not closed plus the number of goroutines that are in the middle of `Close` (and will report
the removal when they leave it). -/
theorem C28_gauge {m : Int} {evs : List Event} {s : State} (h : Reach m evs s) :
    (evs.countP Event.isSubmitted : Int) - evs.countP Event.isRemoved
      = s.runs.countP (fun r => !r.closed) + s.threads.countP inClose := by
  have h1 := h.once.submitted
  have h2 := h.once.gone
  have h3 := List.length_eq_countP_add_countP (fun r : Run => r.closed) (l := s.runs)
  have h4 : s.runs.countP (fun r => !r.closed) = s.runs.countP (fun a => decide ¬a.closed = true) := by
    congr 1; funext r; simp
  omega

/-! ## C25 -/

theorem Reach.split {m : Int} {l : List Event} {s : State} (h : Reach m l s) {pre post : List Event}
    {e : Event} (hl : l = pre ++ e :: post) :
    ∃ s1 s2 a, Reach m pre s1 ∧ Lifecycle.step m s1 a = some (s2, e) := by
  induction h generalizing post with
  | init => simp at hl
  | @step evs s a s' e' hr hs ih =>
    rcases List.eq_nil_or_concat post with rfl | ⟨post', x, rfl⟩
    · obtain ⟨rfl, h2⟩ := List.append_inj' hl rfl
      cases h2
      exact ⟨s, s', a, hr, hs⟩
    · rw [List.concat_eq_append, ← List.cons_append, ← List.append_assoc] at hl
      obtain ⟨h1, -⟩ := List.append_inj' hl rfl
      exact ih h1

theorem ReachOrderly.split {m : Int} {l : List Event} {s : State} (h : ReachOrderly m l s)
    {pre post : List Event} {e : Event} (hl : l = pre ++ e :: post) :
    ∃ s1 s2 a, ReachOrderly m pre s1 ∧ Lifecycle.step m s1 a = some (s2, e) ∧ Orderly s1 e := by
  induction h generalizing post with
  | init => simp at hl
  | @step evs s a s' e' hr hs ho ih =>
    rcases List.eq_nil_or_concat post with rfl | ⟨post', x, rfl⟩
    · obtain ⟨rfl, h2⟩ := List.append_inj' hl rfl
      cases h2
      exact ⟨s, s', a, hr, hs, ho⟩
    · rw [List.concat_eq_append, ← List.cons_append, ← List.append_assoc] at hl
      obtain ⟨h1, -⟩ := List.append_inj' hl rfl
      exact ih h1

theorem live_split {a : Nat} {evs : List Event} (h : live a evs = true) :
    ∃ before r after, evs = before ++ .handed r a :: after ∧ .dropped a ∉ after := by
  induction evs using List.reverseRecOn with
  | nil => simp [live] at h
  | append_singleton evs e ih =>
    rw [live_snoc] at h
    have rest : live a evs = true → e ≠ .dropped a →
        ∃ before r after, evs ++ [e] = before ++ .handed r a :: after ∧ .dropped a ∉ after := by
      intro hl hne
      obtain ⟨before, r, after, h1, h2⟩ := ih hl
      refine ⟨before, r, after ++ [e], by rw [h1]; simp, ?_⟩
      intro hc
      rcases List.mem_append.mp hc with hc | hc
      · exact h2 hc
      · exact hne (List.mem_singleton.mp hc).symm
    cases e with
    | handed r b =>
      simp only [Bool.or_eq_true, beq_iff_eq] at h
      rcases h with h | h
      · exact rest h (by simp)
      · subst h; exact ⟨evs, r, [], rfl, by simp⟩
    | dropped b =>
      simp only [Bool.and_eq_true, Bool.not_eq_true', beq_eq_false_iff_ne] at h
      exact rest h.1 (by simpa using h.2)
    | _ => exact rest h (by simp)

theorem resolved_live {m : Int} {s s' : State} {act : Act} {r a : Nat}
    (hs : step m s act = some (s', .resolved r a)) : (s.mapping a).isSome = true := by
  generalize he : Event.resolved r a = e at hs
  cases (step_inv hs).1 <;> try cases he
  case resolved i f hf hi => rw [hi]; rfl
  case quiet hq => cases hq <;> cases he
  case write hq => cases hq <;> cases he
  case crash hc => rcases hc with ⟨_, _, hc⟩ | ⟨_, hc⟩ <;> cases hc

/-- C25, under every interleaving. An attempt identifier belongs to one run: it is never handed out for
two different runs. When an upload is accepted, its identifier resolves to the run that was handed to a
runner under it, and this registration was not dropped since. -/
theorem C25_resolves_to_owner {m : Int} {evs : List Event} {s : State} (h : Reach m evs s) :
    (∀ r r' a, .handed r a ∈ evs → .handed r' a ∈ evs → r = r') ∧
    ∀ r a pre post, evs = pre ++ .resolved r a :: post →
      ∃ before after, pre = before ++ .handed r a :: after ∧ .dropped a ∉ after := by
  have huniq : ∀ r r' a e e', e ∈ evs → e' ∈ evs → e.about = some (r, a) → e'.about = some (r', a) →
      r = r' := by
    obtain ⟨own, hid⟩ := h.ids
    intro r r' a e e' h1 h2 h3 h4
    rw [← (hid.events _ h1 r a h3).1, ← (hid.events _ h2 r' a h4).1]
  refine ⟨fun r r' a h1 h2 => huniq r r' a _ _ h1 h2 rfl rfl, ?_⟩
  intro r a pre post hl
  obtain ⟨s1, s2, act, hr, hs⟩ := h.split hl
  obtain ⟨own, hid⟩ := hr.ids
  obtain ⟨before, r', after, h1, h2⟩ := live_split ((hid.live a).trans (resolved_live hs))
  obtain rfl : r = r' := huniq r r' a (.resolved r a) (.handed r' a) (by rw [hl]; simp)
    (by rw [hl, h1]; simp) rfl rfl
  exact ⟨before, after, h1, h2⟩

theorem handed_fresh {m : Int} {evs : List Event} {s s' : State} {e : Event} {r a : Nat}
    (h : Tidy m evs s) (hs : Step m s s' e) (he : e = .handed r a) : neverHanded a evs := by
  cases hs <;> try cases he
  case register t run ht hrun =>
    obtain ⟨run', hrun', hf⟩ := h.run_of ht (r := r) (by simp [Thread.on])
    rw [hrun] at hrun'; cases hrun'
    exact hf.2.2.1
  case quiet hq => cases hq <;> cases he
  case write hq => cases hq <;> cases he
  case crash hc => rcases hc with ⟨_, _, hc⟩ | ⟨_, hc⟩ <;> cases hc

theorem dropped_live {m : Int} {own : Nat → Nat} {evs : List Event} {s s' : State} {e : Event} {a : Nat}
    (hid : Ids own evs s) (h : Tidy m evs s) (hs : Step m s s' e) (he : e = .dropped a) :
    live a evs = true := by
  have key : ∀ (r : Nat) (run : Run), s.runs[r]? = some run → run.monitor = true → live run.attempt evs = true := by
    intro r run hrun hmon
    obtain ⟨i, f, h1, -⟩ := h.reg.mon r run hrun hmon
    rw [hid.live, h1]; rfl
  cases hs <;> try cases he
  case rqRemove t w r l ht =>
    obtain ⟨run, hrun, hf⟩ := h.run_of ht (r := r) (by simp [Thread.on])
    rw [hf.2.2.2.2]
    exact key r run hrun hf.2.2.1
  case clRemove t w r ht =>
    obtain ⟨run, hrun, hf⟩ := h.run_of ht (r := r) (by simp [Thread.on])
    rw [hf.2.2.2.2]
    exact key r run hrun hf.2.2.2.1
  case quiet hq => cases hq <;> cases he
  case write hq => cases hq <;> cases he
  case crash hc => rcases hc with ⟨_, _, hc⟩ | ⟨_, hc⟩ <;> cases hc

theorem live_handed {a : Nat} {evs : List Event} (h : live a evs = true) : ∃ r, .handed r a ∈ evs := by
  obtain ⟨before, r, after, rfl, -⟩ := live_split h
  exact ⟨r, by simp⟩

theorem ReachOrderly.dropped {m : Int} {evs : List Event} {s : State} (h : ReachOrderly m evs s) (a : Nat) :
    .dropped a ∈ evs → (∃ r, .handed r a ∈ evs) ∧ live a evs = false := by
  induction h with
  | init => simp
  | @step evs s act s' e hr hs ho ih =>
    have hstep := (step_inv hs).1
    obtain ⟨own, hid⟩ := hr.reach.ids
    intro hd
    rcases List.mem_append.mp hd with hd | hd
    · obtain ⟨⟨r, h1⟩, h2⟩ := ih hd
      refine ⟨⟨r, List.mem_append_left _ h1⟩, ?_⟩
      rw [live_snoc]
      cases e with
      | handed r' a' =>
        have := handed_fresh hr.tidy hstep rfl
        simp only [h2, Bool.false_or, beq_eq_false_iff_ne]
        rintro rfl
        exact this r h1
      | dropped a' => simp [h2]
      | _ => exact h2
    · have he := (List.mem_singleton.mp hd).symm
      subst he
      have := dropped_live hid hr.tidy hstep rfl
      refine ⟨(live_handed this).imp fun r h => List.mem_append_left _ h, ?_⟩
      rw [live_snoc]
      simp

/-- C25, the rest, without races: an attempt identifier is handed out at most once, and after the attempt left
the monitor (timed out, requeued or closed) it never resolves again. Missing: with a race between a timeout
and an upload both fail, see `C25_race_revives_attempt`. -/
theorem C25_stale_rejected_partial {m : Int} {evs : List Event} {s : State} (h : ReachOrderly m evs s) :
    (∀ r r' a pre post, evs = pre ++ .handed r a :: post → .handed r' a ∉ pre ++ post) ∧
    ∀ r a pre post, evs = pre ++ .resolved r a :: post → .dropped a ∉ pre := by
  constructor
  · intro r r' a pre post hl hc
    rcases List.mem_append.mp hc with hc | hc
    · obtain ⟨s1, s2, act, hr, hs, -⟩ := h.split hl
      obtain ⟨own, hid⟩ := hr.reach.ids
      exact handed_fresh hr.tidy (step_inv hs).1 rfl r' hc
    · obtain ⟨p1, p2, rfl⟩ := List.append_of_mem hc
      rw [← List.cons_append, ← List.append_assoc] at hl
      obtain ⟨s1, s2, act, hr, hs, -⟩ := h.split hl
      obtain ⟨own, hid⟩ := hr.reach.ids
      exact handed_fresh hr.tidy (step_inv hs).1 rfl r (by simp)
  · intro r a pre post hl hc
    obtain ⟨s1, s2, act, hr, hs, -⟩ := h.split hl
    obtain ⟨own, hid⟩ := hr.reach.ids
    have h1 := (hid.live a).trans (resolved_live hs)
    rw [(hr.dropped a hc).2] at h1
    cases h1

/-! ## C24 -/

/-- What is known about a run wherever it is. -/
theorem Tidy.fine {m : Int} {evs : List Event} {s : State} (h : Tidy m evs s) {r : Nat} {run : Run}
    (hrun : s.runs[r]? = some run) : ∃ hol, Fine m r run evs hol ∧
      ((∃ x ∈ s.threads, x.on r = true ∧ hol = .thread x) ∨ (r ∈ s.queue ∧ hol = .queued) ∨
        (s.threads.countP (Thread.on r) = 0 ∧ r ∉ s.queue ∧ hol = if run.closed then .gone else .flight)) := by
  by_cases h1 : ∃ x ∈ s.threads, x.on r = true
  · obtain ⟨x, hx, hxr⟩ := h1
    obtain ⟨run', hrun', hf⟩ := h.held x hx r hxr
    rw [hrun] at hrun'; cases hrun'
    exact ⟨_, hf, .inl ⟨x, hx, hxr, rfl⟩⟩
  · have hc : s.threads.countP (Thread.on r) = 0 := by
      rw [List.countP_eq_zero]
      intro x hx hxr
      exact h1 ⟨x, hx, hxr⟩
    by_cases h2 : r ∈ s.queue
    · obtain ⟨run', hrun', hf⟩ := h.queued r h2
      rw [hrun] at hrun'; cases hrun'
      exact ⟨_, hf, .inr (.inl ⟨h2, rfl⟩)⟩
    · exact ⟨_, h.idle r run hrun (by rw [hc, List.count_eq_zero.mpr h2]), .inr (.inr ⟨hc, h2, rfl⟩)⟩

theorem Fine.bounds {m : Int} {r : Nat} {run : Run} {evs : List Event} {hol : Holder}
    (h : Fine m r run evs hol) (hon : ∀ x, hol = .thread x → x.on r = true) :
    (evs.countP (Event.hands r) : Int) ≤ max 1 m ∧
      (errorSeen r evs → (sinceError r evs).countP (Event.hands r) ≤ 1) := by
  have hw : ∀ {H after : Nat} {je : Prop}, Waits m run H after je → (H : Int) ≤ max 1 m ∧ (je → after ≤ 1) := by
    intro H after je ⟨h1, h2, h3⟩
    refine ⟨by rcases h2 with h2 | h2 <;> omega, fun hj => by have := (h3 hj).1; omega⟩
  have hs : ∀ {H after : Nat} {je : Prop} {l : Bool}, Spent m run H after je l →
      (H : Int) ≤ max 1 m ∧ (je → after ≤ 1) := by
    intro H after je l ⟨h1, h2, h3⟩
    refine ⟨h2, fun hj => by rcases h3 hj with h | h <;> omega⟩
  cases hol with
  | queued => exact hw h.2.2.2.2
  | flight => exact hs h.2.2.2
  | gone => exact h.2.2.2.2
  | thread x =>
    have := hon x rfl
    cases x with
    | adding => exact hw h.2.2.2.2
    | getting => exact hw h.2.2.2.2
    | registering => exact hw h.2.2.2.2
    | close w q pc => exact ⟨h.1, h.2.1⟩
    | requeue w q l pc =>
      have h' := h.2.2
      cases pc with
      | check => exact hs h'.2
      | callRemove => exact hs h'.2
      | remove a => exact hs h'.2.1
      | readTries => exact hs h'.2
      | writeTries n => exact hs h'.2.1
      | test => exact ⟨h'.2.2.1, fun hj => by rcases h'.2.2.2 hj with h | h <;> omega⟩
      | setLast =>
        obtain ⟨h1, h2, h3, h4⟩ := h'
        exact ⟨by omega, fun hj => by have := (h4 hj).2; omega⟩
      | newId => exact hw h'.2.1
      | setId a => exact hw h'.2.1
      | enqueue => exact hw h'.2.1
    | watchConnect => simp [Thread.on] at this
    | watchReady => simp [Thread.on] at this
    | handling => simp [Thread.on] at this
    | done => simp [Thread.on] at this

/-- C24, without races: a run is handed to runners at most `max 1 MaxGradeRetries` times, and after a
runner reported a judge error at most once more. Missing: with races there may be more, see
`C24_race_exceeds_retries`. -/
theorem C24_retries_bounded_partial {m : Int} {evs : List Event} {s : State} (h : ReachOrderly m evs s)
    (r : Nat) :
    (evs.countP (Event.hands r) : Int) ≤ max 1 m ∧
    ∀ a pre post, evs = pre ++ .judgeError r a :: post → post.countP (Event.hands r) ≤ 1 := by
  have key : (evs.countP (Event.hands r) : Int) ≤ max 1 m ∧
      (errorSeen r evs → (sinceError r evs).countP (Event.hands r) ≤ 1) := by
    cases hrun : s.runs[r]? with
    | some run =>
      obtain ⟨hol, hf, hw⟩ := h.tidy.fine hrun
      refine hf.bounds ?_
      rintro x rfl
      rcases hw with ⟨y, -, hy, hxy⟩ | ⟨-, hc⟩ | ⟨-, -, hc⟩
      · cases hxy; exact hy
      · cases hc
      · split_ifs at hc
    | none =>
      have hlen : s.runs.length ≤ r := by simpa using hrun
      have hno : ∀ e ∈ evs, ∀ a, e.about ≠ some (r, a) := fun e he a hc => by
        have := h.reach.known.events e he r a hc; omega
      have hzero : evs.countP (Event.hands r) = 0 := by
        rw [List.countP_eq_zero]
        intro e he hh
        cases e <;> simp [Event.hands] at hh
        rename_i q a
        subst hh
        exact hno _ he a rfl
      refine ⟨by rw [hzero]; omega, ?_⟩
      rintro ⟨a, ha⟩
      exact absurd rfl (hno _ ha a)
  refine ⟨key.1, ?_⟩
  rintro a pre post rfl
  refine le_trans ?_ (key.2 ⟨a, by simp⟩)
  unfold sinceError
  rw [List.dropWhile_append]
  split_ifs
  · simp [Event.judges, List.countP_cons]
  · simp [List.countP_cons]
    omega

/-! ## C27 -/

/-- C27, without races: when a result was uploaded for a run and the run was removed, it was handed to
the post-processor, unless the files could not be written; and every removed run had its Ready channel
closed, unless the files could not be written. Missing: a run given up after its last retry is never
handed to the post-processor (`C27_abandoned_not_processed`), and a race may lose a result
(`C29_race_closed_and_queued`). -/
theorem C27_processed_partial {m : Int} {evs : List Event} {s : State} (h : ReachOrderly m evs s)
    {r : Nat} (hrem : .removed r ∈ evs) (hdisk : .notPersisted r ∉ evs) :
    .ready r ∈ evs ∧ ∀ a, .uploaded r a ∈ evs → .posted r ∈ evs := by
  have hpos : 0 < evs.count (.removed r) := List.count_pos_iff.mpr hrem
  have h1 := h.reach.once.removed r
  have hcl : s.isClosed r = true := by
    by_contra hc
    rw [if_neg hc] at h1; omega
  rw [if_pos hcl] at h1
  have h0 : s.threads.countP (Shot.removed.holds r) = 0 := by omega
  rw [List.countP_eq_zero] at h0
  obtain ⟨run, hrun, hrc⟩ : ∃ run, s.runs[r]? = some run ∧ run.closed = true := by
    unfold State.isClosed at hcl
    cases hr : s.runs[r]? with
    | none => rw [hr] at hcl; simp at hcl
    | some run => rw [hr] at hcl; exact ⟨run, rfl, by simpa using hcl⟩
  obtain ⟨hol, hf, hw⟩ := h.tidy.fine hrun
  rcases hw with ⟨x, hx, hxr, rfl⟩ | ⟨-, rfl⟩ | ⟨-, -, rfl⟩
  · exfalso
    cases x with
    | adding => have := hf.2.1; rw [hrc] at this; cases this
    | getting => have := hf.2.1; rw [hrc] at this; cases this
    | registering => have := hf.2.1; rw [hrc] at this; cases this
    | requeue => have := hf.1; rw [hrc] at this; cases this
    | close w q pc =>
      have hq : q = r := by simpa [Thread.on] using hxr
      have h3 := h0 _ hx
      cases pc <;> simp [Shot.holds, Shot.pending, hq] at h3
      have := hf.2.2.1
      rw [hrc] at this; cases this
    | watchConnect => simp [Thread.on] at hxr
    | watchReady => simp [Thread.on] at hxr
    | handling => simp [Thread.on] at hxr
    | done => simp [Thread.on] at hxr
  · have := hf.2.1; rw [hrc] at this; cases this
  · rw [if_pos hrc] at hf
    refine ⟨?_, fun a ha => ?_⟩
    · exact hf.2.2.2.1.resolve_right hdisk
    · exact (hf.2.2.1 ⟨a, ha⟩).resolve_right hdisk

/-! ## C29 -/

/-- The attempts under which an upload would be accepted for run `r`. -/
def State.inFlight (s : State) (r a : Nat) : Prop :=
  ∃ i f, s.mapping a = some i ∧ s.inflights[i]? = some f ∧ f.run = r

/-- C29, without races. A run is in at most one queue slot and in flight under at most one attempt; a queued
run is neither in flight nor closed; and when no goroutine is moving the run from one place to another
(adding, handing out, requeuing, closing), it is in exactly one of the three places. Missing: with
a race, a closed run may be queued, see `C29_race_closed_and_queued`. -/
theorem C29_one_place_partial {m : Int} {evs : List Event} {s : State} (h : ReachOrderly m evs s)
    {r : Nat} {run : Run} (hrun : s.runs[r]? = some run) :
    s.queue.count r ≤ 1 ∧
    (∀ a b, s.inFlight r a → s.inFlight r b → a = b) ∧
    (r ∈ s.queue → run.closed = false ∧ ∀ a, ¬ s.inFlight r a) ∧
    ((∀ x ∈ s.threads, x.on r = false) →
      (r ∈ s.queue ∧ (∀ a, ¬ s.inFlight r a) ∧ run.closed = false) ∨
      (r ∉ s.queue ∧ (∃ a, s.inFlight r a) ∧ run.closed = false) ∨
      (r ∉ s.queue ∧ (∀ a, ¬ s.inFlight r a) ∧ run.closed = true)) := by
  have ht := h.tidy
  have hfl : ∀ a, s.inFlight r a → a = run.attempt ∧ run.monitor = true := by
    rintro a ⟨i, f, h1, h2, h3⟩
    obtain ⟨g, run', h4, h5, h6, h7⟩ := ht.reg.map a i h1
    rw [h2] at h4; cases h4
    rw [h3, hrun] at h5; cases h5
    exact ⟨h6.symm, h7⟩
  have hfl' : run.monitor = true → s.inFlight r run.attempt := fun hm => ht.reg.mon r run hrun hm
  have hqueued : r ∈ s.queue → run.closed = false ∧ ∀ a, ¬ s.inFlight r a := by
    intro hq
    obtain ⟨run', hrun', hf⟩ := ht.queued r hq
    rw [hrun] at hrun'; cases hrun'
    refine ⟨hf.2.1, fun a ha => ?_⟩
    have := (hfl a ha).2
    rw [hf.1] at this; cases this
  refine ⟨by have := ht.occ r; omega, fun a b ha hb => (hfl a ha).1.trans (hfl b hb).1.symm, hqueued, ?_⟩
  intro hno
  obtain ⟨hol, hf, hw⟩ := ht.fine hrun
  rcases hw with ⟨x, hx, hxr, rfl⟩ | ⟨hq, rfl⟩ | ⟨-, hq, rfl⟩
  · rw [hno x hx] at hxr; cases hxr
  · exact .inl ⟨hq, (hqueued hq).2, (hqueued hq).1⟩
  · split_ifs at hf with hc
    · refine .inr (.inr ⟨hq, fun a ha => ?_, hc⟩)
      have := (hfl a ha).2
      rw [hf.1] at this; cases this
    · exact .inr (.inl ⟨hq, ⟨_, hfl' hf.1⟩, hf.2.1⟩)

/-! ## C66 -/

/-- C66, without races: the grader does not crash. Missing: with a race it may, see
`C66_race_crashes_grader`. -/
theorem C66_no_crash_partial {m : Int} {evs : List Event} {s : State} (h : ReachOrderly m evs s) :
    s.crashed = false ∧ ∀ r, .crashed r ∉ evs ∧ .panicked r ∉ evs := by
  refine ⟨h.tidy.calm, ?_⟩
  intro r
  have key : ∀ e, (e = .crashed r ∨ e = .panicked r) → e ∉ evs := by
    intro e he hc
    obtain ⟨pre, post, hl⟩ := List.append_of_mem hc
    obtain ⟨s1, s2, act, hr, hs, ho⟩ := h.split hl
    have hst := (step_inv hs).1
    have ht := hr.tidy
    have hcalm := (ReachOrderly.step hr hs ho).tidy.calm
    cases hst
    case quiet t y x ht' hq =>
      cases hq <;> simp at he
      rename_i q l run hrun hm
      obtain ⟨run', hrun', hf⟩ := ht.run_of ht' (r := q) (by simp [Thread.on])
      rw [hrun] at hrun'; cases hrun'
      simp [Fine, Good, hm] at hf
    case write t y r f x ht' hw => cases hw <;> simp at he
    case crash => simp [State.goto] at hcalm
    all_goals simp at he
  exact ⟨key _ (.inl rfl), key _ (.inr rfl)⟩

end Quark.Lifecycle
