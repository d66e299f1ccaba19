import Verif.Lifecycle.Races

/-!
# How far a race can go (C24)

With `MaxGradeRetries` at least 2 there is no bound at all on how often a run may be handed out: any number
of uploads for the same attempt that fail at the same time read the same `tries`, and each of them puts the
run back into the queue. With `MaxGradeRetries` at most 1 no race can hand a run out twice.
-/

namespace Quark.Lifecycle

/-- From `s`, the events `evs` may happen and lead to `s'`. -/
def Leads (m : Int) (s : State) (evs : List Event) (s' : State) : Prop :=
  ∀ pre, Reach m pre s → Reach m (pre ++ evs) s'

theorem Leads.refl {m : Int} {s : State} : Leads m s [] s := fun pre h => by simpa using h

theorem Leads.trans {m : Int} {s s' s'' : State} {e e' : List Event} (h : Leads m s e s') (h' : Leads m s' e' s'') :
    Leads m s (e ++ e') s'' := fun pre hr => by
  rw [← List.append_assoc]; exact h' _ (h _ hr)

theorem Leads.one {m : Int} {s s' : State} {a : Act} {e : Event} (h : step m s a = some (s', e)) :
    Leads m s [e] s' := fun _ hr => .step hr h

theorem Leads.next {m : Int} {s s' s'' : State} {a : Act} {e : Event} {es : List Event}
    (h : step m s a = some (s', e)) (h' : Leads m s' es s'') : Leads m s (e :: es) s'' :=
  (Leads.one h).trans h'

/-- An upload handler that has read `n` from `tries` and not written it back yet. -/
def holding (n : Int) : Thread := .requeue false 0 false (.writeTries n)

/-- An upload handler that failed and is about to requeue the run. -/
def atCheck : Thread := .requeue false 0 false .check

/-- Such a handler goes on: the run is enqueued, taken and handed out once more. -/
theorem holding_hands {m n : Int} (hn : 2 ≤ n) (T : List Thread) (t : Nat) (ht : T[t]? = some (holding n))
    (run : Run) (mp : Nat → Option Nat) (infl : List Inflight) (lid : Nat) :
    ∃ evs run' mp' infl', evs.countP (Event.hands 0) = 1 ∧
      Leads m ⟨[run], [], mp, infl, lid, T, false⟩ evs
        ⟨[run'], [], mp', infl', lid + 1, T.set t .done ++ [.done, .watchConnect infl.length], false⟩ := by
  have hlt : t < T.length := (List.getElem?_eq_some_iff.mp ht).1
  have hset : ∀ x : Thread, (T.set t x)[t]? = some x := fun x => by simp [hlt]
  refine ⟨[.tau, .tau, .tau, .tau, .tau, .queued 0, .taken 0, if run.running then .tau else .running 0,
    .handed 0 (lid + 1)], { run with tries := n - 1, attempt := lid + 1, running := true, monitor := true },
    Function.update mp (lid + 1) (some infl.length), infl ++ [{ run := 0, attempt := lid + 1 }],
    by cases run.running <;> rfl, ?_⟩
  have h1 : step m ⟨[run], [], mp, infl, lid, T, false⟩ (.step t) =
      some (⟨[{ run with tries := n - 1 }], [], mp, infl, lid, T.set t (.requeue false 0 false .test), false⟩, .tau) := by
    simp [step, ht, holding, stepRequeue, State.goto, State.modRun]
  have h2 : step m ⟨[{ run with tries := n - 1 }], [], mp, infl, lid, T.set t (.requeue false 0 false .test), false⟩
      (.step t) = some (⟨[{ run with tries := n - 1 }], [], mp, infl, lid,
        T.set t (.requeue false 0 false .setLast), false⟩, .tau) := by
    have : ¬ (n - 1 ≤ 0) := by omega
    simp [step, hset, stepRequeue, State.goto, this]
  have h3 : step m ⟨[{ run with tries := n - 1 }], [], mp, infl, lid, T.set t (.requeue false 0 false .setLast), false⟩
      (.step t) = some (⟨[{ run with tries := n - 1 }], [], mp, infl, lid,
        T.set t (.requeue false 0 false .newId), false⟩, .tau) := by
    simp [step, hset, stepRequeue, State.goto]
  have h4 : step m ⟨[{ run with tries := n - 1 }], [], mp, infl, lid, T.set t (.requeue false 0 false .newId), false⟩
      (.step t) = some (⟨[{ run with tries := n - 1 }], [], mp, infl, lid + 1,
        T.set t (.requeue false 0 false (.setId (lid + 1))), false⟩, .tau) := by
    simp [step, hset, stepRequeue, State.goto]
  have h5 : step m ⟨[{ run with tries := n - 1 }], [], mp, infl, lid + 1,
      T.set t (.requeue false 0 false (.setId (lid + 1))), false⟩
      (.step t) = some (⟨[{ run with tries := n - 1, attempt := lid + 1 }], [], mp, infl, lid + 1,
        T.set t (.requeue false 0 false .enqueue), false⟩, .tau) := by
    simp [step, hset, stepRequeue, State.goto, State.modRun]
  have h6 : step m ⟨[{ run with tries := n - 1, attempt := lid + 1 }], [], mp, infl, lid + 1,
      T.set t (.requeue false 0 false .enqueue), false⟩
      (.step t) = some (⟨[{ run with tries := n - 1, attempt := lid + 1 }], [0], mp, infl, lid + 1,
        T.set t .done, false⟩, .queued 0) := by
    simp [step, hset, stepRequeue, State.goto]
  have h7 : step m ⟨[{ run with tries := n - 1, attempt := lid + 1 }], [0], mp, infl, lid + 1, T.set t .done, false⟩
      (.take 0) = some (⟨[{ run with tries := n - 1, attempt := lid + 1 }], [], mp, infl, lid + 1,
        T.set t .done ++ [.getting 0], false⟩, .taken 0) := by
    simp [step]
  have hlast : ∀ x : Thread, (T.set t .done ++ [x])[T.length]? = some x := fun x => by
    rw [List.getElem?_append_right (by simp)]; simp
  have hlast' : ∀ x y : Thread, (T.set t .done ++ [x]).set T.length y = T.set t .done ++ [y] := fun x y => by
    rw [List.set_append_right _ _ (by simp)]; simp
  have h8 : step m ⟨[{ run with tries := n - 1, attempt := lid + 1 }], [], mp, infl, lid + 1,
        T.set t .done ++ [.getting 0], false⟩
      (.step T.length) = some (⟨[{ run with tries := n - 1, attempt := lid + 1, running := true }], [], mp, infl, lid + 1,
        T.set t .done ++ [.registering 0], false⟩, if run.running then .tau else .running 0) := by
    obtain ⟨tr, at', mo, cl, ru, inp⟩ := run
    cases ru <;> simp [step, State.goto, hlast', State.modRun]
  have h9 : step m ⟨[{ run with tries := n - 1, attempt := lid + 1, running := true }], [], mp, infl, lid + 1,
        T.set t .done ++ [.registering 0], false⟩
      (.step T.length) = some (⟨[{ run with tries := n - 1, attempt := lid + 1, running := true, monitor := true }], [],
        Function.update mp (lid + 1) (some infl.length), infl ++ [{ run := 0, attempt := lid + 1 }], lid + 1,
        T.set t .done ++ [.done, .watchConnect infl.length], false⟩, .handed 0 (lid + 1)) := by
    simp [step, hlast']
  exact .next h1 (.next h2 (.next h3 (.next h4 (.next h5 (.next h6 (.next h7 (.next h8 (.one h9))))))))

theorem count_set_done {T : List Thread} {t : Nat} {x : Thread} (hx : x ≠ .done) (ht : T[t]? = some x) {k : Nat}
    (hk : k + 1 ≤ T.count x) : k ≤ (T.set t .done).count x := by
  have hlt : t < T.length := (List.getElem?_eq_some_iff.mp ht).1
  rw [List.count_set hlt]
  have : T[t] = x := (List.getElem?_eq_some_iff.mp ht).2
  simp [this, hx.symm]
  omega

/-- `k` such handlers: the run is handed out `k` more times. -/
theorem holding_all {m n : Int} (hn : 2 ≤ n) (k : Nat) : ∀ (T : List Thread), k ≤ T.count (holding n) →
    ∀ (run : Run) (mp : Nat → Option Nat) (infl : List Inflight) (lid : Nat),
    ∃ evs s', evs.countP (Event.hands 0) = k ∧ Leads m ⟨[run], [], mp, infl, lid, T, false⟩ evs s' := by
  induction k with
  | zero => intro T _ run mp infl lid; exact ⟨[], _, rfl, .refl⟩
  | succ k ih =>
    intro T hk run mp infl lid
    obtain ⟨t, hlt, ht⟩ := List.getElem_of_mem (List.count_pos_iff.mp (Nat.lt_of_lt_of_le (Nat.succ_pos k) hk))
    have ht' : T[t]? = some (holding n) := by rw [List.getElem?_eq_getElem hlt, ht]
    obtain ⟨evs, run', mp', infl', h1, h2⟩ := holding_hands (m := m) hn T t ht' run mp infl lid
    have h3 := count_set_done (by simp [holding]) ht' hk
    obtain ⟨evs', s', h4, h5⟩ := ih (T.set t .done ++ [.done, .watchConnect infl.length])
      (by rw [List.count_append]; omega) run' mp' infl' (lid + 1)
    exact ⟨evs ++ evs', s', by rw [List.countP_append, h1, h4]; omega, h2.trans h5⟩

/-- A failed handler that finds the run without a monitor reads `tries`. -/
theorem check_holds {m : Int} (T : List Thread) (t : Nat) (ht : T[t]? = some atCheck)
    (run : Run) (hm : run.monitor = false) (mp : Nat → Option Nat) (infl : List Inflight) (lid : Nat) :
    Leads m ⟨[run], [], mp, infl, lid, T, false⟩ [.tau, .tau]
        ⟨[run], [], mp, infl, lid, T.set t (holding run.tries), false⟩ := by
  have hlt : t < T.length := (List.getElem?_eq_some_iff.mp ht).1
  have hset : ∀ x : Thread, (T.set t x)[t]? = some x := fun x => by simp [hlt]
  refine .next (a := .step t) (s' := ⟨[run], [], mp, infl, lid, T.set t (.requeue false 0 false .readTries), false⟩) ?_
    (.one (a := .step t) ?_)
  · simp [step, ht, atCheck, stepRequeue, State.goto, hm]
  · simp [step, hset, holding, stepRequeue, State.goto]

theorem check_all {m : Int} (k : Nat) : ∀ (T : List Thread) (j : Nat) (run : Run), run.monitor = false →
    k ≤ T.count atCheck → j ≤ T.count (holding run.tries) →
    ∀ (mp : Nat → Option Nat) (infl : List Inflight) (lid : Nat),
    ∃ evs T', j + k ≤ T'.count (holding run.tries) ∧
      Leads m ⟨[run], [], mp, infl, lid, T, false⟩ evs ⟨[run], [], mp, infl, lid, T', false⟩ := by
  induction k with
  | zero => intro T j run _ _ hj mp infl lid; exact ⟨[], T, hj, .refl⟩
  | succ k ih =>
    intro T j run hm hk hj mp infl lid
    obtain ⟨t, hlt, ht⟩ := List.getElem_of_mem (List.count_pos_iff.mp (Nat.lt_of_lt_of_le (Nat.succ_pos k) hk))
    have ht' : T[t]? = some atCheck := by rw [List.getElem?_eq_getElem hlt, ht]
    obtain ⟨evs, T', h1, h2⟩ := ih (T.set t (holding run.tries)) (j + 1) run hm
      (by rw [List.count_set hlt]; simp [ht, holding, atCheck] at *; omega)
      (by rw [List.count_set hlt]; simp [ht, holding, atCheck] at *; omega) mp infl lid
    exact ⟨_, T', by omega, (check_holds T t ht' run hm mp infl lid).trans h2⟩

/-- Uploads for the attempt in flight arrive and fail, as many as one likes. -/
theorem upload_all {m : Int} (run : Run) (mp : Nat → Option Nat) (hmp : mp 1 = some 0) (lid : Nat) (k : Nat) :
    ∀ (T : List Thread) (f : Inflight), f.run = 0 →
    ∃ evs f', f'.run = 0 ∧ Leads m ⟨[run], [], mp, [f], lid, T, false⟩ evs
      ⟨[run], [], mp, [f'], lid, T ++ List.replicate k atCheck, false⟩ := by
  induction k with
  | zero => intro T f hf; exact ⟨[], f, hf, by simpa using Leads.refl⟩
  | succ k ih =>
    intro T f hf
    obtain ⟨evs, f', h1, h2⟩ := ih (T ++ [atCheck]) { f with connected := true } hf
    refine ⟨.resolved 0 1 :: .failed 0 1 :: evs, f', h1, ?_⟩
    refine .next (a := .upload 1)
      (s' := ⟨[run], [], mp, [{ f with connected := true }], lid, T ++ [.handling 0 1], false⟩) ?_
      (.next (a := .retry T.length)
        (s' := ⟨[run], [], mp, [{ f with connected := true }], lid, T ++ [atCheck], false⟩) ?_ ?_)
    · simp [step, hmp, hf]
    · have e1 : (T ++ [Thread.handling 0 1])[T.length]? = some (.handling 0 1) := by simp
      have e2 : (T ++ [Thread.handling 0 1]).set T.length atCheck = T ++ [atCheck] := by
        rw [List.set_append_right _ _ (by simp)]; simp
      rw [show atCheck = Thread.requeue false 0 false .check from rfl] at *
      simp [step, State.goto, e2]
    · simpa [List.replicate_succ] using h2

/-- C24 fails with races without any bound: for every `MaxGradeRetries` of at least 2 and every `n` there is
an execution in which one run is handed to runners more than `n` times. -/
theorem C24_race_unbounded (m : Int) (hm : 2 ≤ m) (n : Nat) :
    ∃ evs s, Reach m evs s ∧ n < evs.countP (Event.hands 0) := by
  -- the run is handed out
  obtain ⟨evs0, h0, hc0⟩ : ∃ evs, Reach m evs ⟨[{ tries := m, attempt := 1, monitor := true, running := true }], [],
      Function.update (fun _ => none) 1 (some 0), [{ run := 0, attempt := 1 }], 1,
      [.done, .done, .watchConnect 0], false⟩ ∧ evs.countP (Event.hands 0) = 1 := by
    refine ⟨[.submitted 0, .queued 0, .taken 0, .running 0, .handed 0 1], ?_, rfl⟩
    exact (reach_of_exec (acts := handOut) rfl)
  -- n + 1 uploads fail
  obtain ⟨evs1, f, hf, h1⟩ := upload_all (m := m) { tries := m, attempt := 1, monitor := true, running := true }
    (Function.update (fun _ => none) 1 (some 0)) (by simp) 1 (n + 1) [.done, .done, .watchConnect 0]
    { run := 0, attempt := 1 } rfl
  -- the first of them removes the attempt and reads `tries`
  have h2 : ∃ evs mp infl T, n ≤ T.count atCheck ∧ 1 ≤ T.count (holding m) ∧
      Leads m ⟨[{ tries := m, attempt := 1, monitor := true, running := true }], [],
      Function.update (fun _ => none) 1 (some 0), [f], 1,
      [.done, .done, .watchConnect 0] ++ List.replicate (n + 1) atCheck, false⟩ evs
      ⟨[{ tries := m, attempt := 1, monitor := false, running := true }], [], mp, infl, 1, T, false⟩ := by
    refine ⟨[.tau, .tau, .dropped 1, .tau], Function.update (Function.update (fun _ => none) 1 (some 0)) 1 none,
      [{ f with connected := true, ready := true }],
      [.done, .done, .watchConnect 0, holding m] ++ List.replicate n atCheck, ?_, ?_,
      .next (a := .step 3) (s' := ⟨[{ tries := m, attempt := 1, monitor := true, running := true }], [],
        Function.update (fun _ => none) 1 (some 0), [f], 1,
        [.done, .done, .watchConnect 0, .requeue false 0 false .callRemove] ++ List.replicate n atCheck, false⟩) ?_
      (.next (a := .step 3) (s' := ⟨[{ tries := m, attempt := 1, monitor := true, running := true }], [],
        Function.update (fun _ => none) 1 (some 0), [f], 1,
        [.done, .done, .watchConnect 0, .requeue false 0 false (.remove 1)] ++ List.replicate n atCheck, false⟩) ?_
      (.next (a := .step 3) (s' := ⟨[{ tries := m, attempt := 1, monitor := false, running := true }], [],
        Function.update (Function.update (fun _ => none) 1 (some 0)) 1 none,
        [{ f with connected := true, ready := true }], 1,
        [.done, .done, .watchConnect 0, .requeue false 0 false .readTries] ++ List.replicate n atCheck, false⟩) ?_
      (.one (a := .step 3) ?_)))⟩
    · rw [List.count_append, List.count_replicate_self]; omega
    · rw [List.count_append]
      refine Nat.le_trans ?_ (Nat.le_add_right _ _)
      exact List.count_pos_iff.mpr (by simp)
    · exact rfl
    · exact rfl
    · simp [step, stepRequeue, State.removeAttempt, State.goto, hf]
    · exact rfl
  obtain ⟨evs2, mp, infl, T, hT1, hT2, h2⟩ := h2
  -- the others read the same `tries`
  obtain ⟨evs3, T', hT', h3⟩ := check_all (m := m) n T 1
    { tries := m, attempt := 1, monitor := false, running := true } rfl hT1 hT2 mp infl 1
  -- and all of them enqueue the run
  obtain ⟨evs4, s', hc, h4⟩ := holding_all (m := m) hm (1 + n) T' hT'
    { tries := m, attempt := 1, monitor := false, running := true } mp infl 1
  have := ((h1.trans h2).trans h3).trans h4 _ h0
  refine ⟨_, _, this, ?_⟩
  simp only [List.countP_append, hc0, hc]
  omega

/-! ## What holds whatever the race -/

/-- A runner failed to grade run `r`: an upload ended with an error or a judge error, or time ran out. -/
def Event.setback (r : Nat) : Event → Bool
  | .failed q _ | .judgeError q _ | .timedOut q _ => q == r
  | _ => false

/-- The run was submitted. -/
def Event.submits (r : Nat) : Event → Bool
  | .submitted q => q == r
  | _ => false

/-- A goroutine that may still hand the run out; with `b`, also one that may put it back into the queue. -/
def Thread.mayHand (b : Bool) (r : Nat) : Thread → Bool
  | .adding q | .getting q | .registering q => q == r
  | .requeue _ q _ _ => b && q == r
  | _ => false

/-- Hand-outs, past and possible, against their causes. -/
def Paid (b : Bool) (r : Nat) (evs : List Event) (s : State) : Prop :=
  evs.countP (Event.hands r) + s.queue.count r + s.threads.countP (Thread.mayHand b r) ≤
    evs.countP (Event.submits r) + (if b then evs.countP (Event.setback r) else 0)

theorem Paid.move {b : Bool} {r : Nat} {evs : List Event} {s s' : State} {e : Event} (h : Paid b r evs s)
    {t : Nat} {y x : Thread} {extra : List Thread} (ht : s.threads[t]? = some y)
    (hthr : s'.threads = s.threads.set t x ++ extra)
    (hle : (e.hands r).toNat + s'.queue.count r + (x.mayHand b r).toNat + extra.countP (Thread.mayHand b r) ≤
      s.queue.count r + (y.mayHand b r).toNat + (e.submits r).toNat +
        (if b then (e.setback r).toNat else 0)) : Paid b r (evs ++ [e]) s' := by
  have hc := countP_goto (f := Thread.mayHand b r) (x := x) ht
  have hif : ∀ c : Bool, (if c = true then 1 else 0) = c.toNat := by decide
  rw [hif, hif] at hc
  have one : ∀ p : Event → Bool, (evs ++ [e]).countP p = evs.countP p + (p e).toNat := fun p => by
    rw [List.countP_append]; cases hp : p e <;> simp [hp]
  unfold Paid at *
  rw [one, one, one, hthr, List.countP_append]
  cases b <;> simp only [Bool.false_eq_true, if_true, if_false] at * <;> omega

theorem Paid.spawn {b : Bool} {r : Nat} {evs : List Event} {s s' : State} {e : Event} (h : Paid b r evs s)
    {extra : List Thread} (hthr : s'.threads = s.threads ++ extra)
    (hle : (e.hands r).toNat + s'.queue.count r + extra.countP (Thread.mayHand b r) ≤
      s.queue.count r + (e.submits r).toNat + (if b then (e.setback r).toNat else 0)) :
    Paid b r (evs ++ [e]) s' := by
  have one : ∀ p : Event → Bool, (evs ++ [e]).countP p = evs.countP p + (p e).toNat := fun p => by
    rw [List.countP_append]; cases hp : p e <;> simp [hp]
  unfold Paid at *
  rw [one, one, one, hthr, List.countP_append]
  cases b <;> simp only [Bool.false_eq_true, if_true, if_false] at * <;> omega

theorem Quiet.paid {s : State} {y x : Thread} {e : Event} (h : Quiet s y x e) (b : Bool) (r : Nat) :
    (e.hands r).toNat + (x.mayHand b r).toNat ≤
      (y.mayHand b r).toNat + (e.submits r).toNat + (if b then (e.setback r).toNat else 0) := by
  cases h <;> cases b <;> simp [Event.hands, Event.submits, Event.setback, Thread.mayHand]
  all_goals (rename_i run _; by_cases hh : run.tries ≤ 0 <;> simp [hh])

theorem Write.paid {s : State} {y x : Thread} {q : Nat} {f : Run → Run} {e : Event} (h : Write s y q f x e)
    (b : Bool) (r : Nat) :
    (e.hands r).toNat + (x.mayHand b r).toNat ≤
      (y.mayHand b r).toNat + (e.submits r).toNat + (if b then (e.setback r).toNat else 0) := by
  cases h <;> cases b <;> simp [Event.hands, Event.submits, Event.setback, Thread.mayHand]

theorem queue_removeAttempt (s : State) (a : Nat) : (s.removeAttempt a).queue = s.queue := by
  unfold State.removeAttempt; split <;> [rfl; (split <;> rfl)]

theorem count_snoc (l : List Nat) (q r : Nat) : (l ++ [q]).count r = l.count r + (q == r).toNat := by
  rw [List.count_append, List.count_singleton]; cases q == r <;> rfl

theorem Paid.step {m : Int} {b : Bool} {r : Nat} {evs : List Event} {s s' : State} {e : Event}
    (h : Paid b r evs s) (hs : Step m s s' e)
    (hb : b = false → ∀ w q l, .requeue w q l .enqueue ∉ s.threads) : Paid b r (evs ++ [e]) s' := by
  cases hs with
  | submit =>
    refine h.spawn rfl ?_
    simp [Event.hands, Event.submits, Event.setback, Thread.mayHand, List.countP_cons]
    by_cases hr : s.runs.length = r <;> simp [hr]
  | take k q hq =>
    refine h.spawn rfl ?_
    obtain ⟨hlt, rfl⟩ := List.getElem?_eq_some_iff.mp hq
    have : s.queue.count r = (s.queue.eraseIdx k).count r + (s.queue[k] == r).toNat := by
      have hp := (List.getElem_cons_eraseIdx_perm hlt).count_eq r
      rw [← hp, List.count_cons]
      cases (s.queue[k] == r) <;> simp
    rw [this]
    simp [Event.hands, Event.submits, Event.setback, Thread.mayHand, List.countP_cons]
    by_cases hr : s.queue[k] = r <;> simp [hr]
  | rejected a ha =>
    exact h.spawn (extra := []) (by simp) (by simp [Event.hands, Event.submits, Event.setback])
  | resolved a i f ha hi =>
    refine h.spawn rfl ?_
    simp [Event.hands, Event.submits, Event.setback, Thread.mayHand]
  | quiet t y x e ht hq =>
    have := hq.paid b r
    exact h.move (x := x) ht (extra := []) (by simp [State.goto]) (by simp only [State.goto, List.countP_nil]; omega)
  | write t y q f x e ht hq =>
    have := hq.paid b r
    exact h.move (x := x) ht (extra := []) (by simp [State.goto, State.modRun])
      (by simp only [State.goto, State.modRun, List.countP_nil]; omega)
  | crash t y q e run ht hr hm hc =>
    refine h.move ht (extra := []) (x := .done) (by simp [State.goto]) ?_
    rcases hc with ⟨l, rfl, rfl⟩ | ⟨rfl | rfl, rfl⟩ <;>
      simp [State.goto, Event.hands, Event.submits, Event.setback, Thread.mayHand]
  | clPanic t y q run ht hr hm hc =>
    refine h.move ht (extra := []) (x := .done) (by simp [State.goto]) ?_
    rcases hc with rfl | rfl <;>
      simp [State.goto, Event.hands, Event.submits, Event.setback, Thread.mayHand]
  | rqRemove t w q l a ht =>
    refine h.move (x := .requeue w q l .readTries) ht (extra := []) (by simp [State.goto, threads_removeAttempt]) ?_
    simp [State.goto, queue_removeAttempt, Event.hands, Event.submits, Event.setback, Thread.mayHand]
  | clRemove t w q a ht =>
    refine h.move (x := .close w q (.release true)) ht (extra := []) (by simp [State.goto, threads_removeAttempt]) ?_
    simp [State.goto, queue_removeAttempt, Event.hands, Event.submits, Event.setback, Thread.mayHand]
  | newId t w q l ht =>
    refine h.move (x := .requeue w q l (.setId (s.lastId + 1))) ht (extra := []) (by simp [State.goto]) ?_
    simp [State.goto, Event.hands, Event.submits, Event.setback, Thread.mayHand]
  | add t q ht =>
    refine h.move (x := .done) ht (extra := []) (by simp [State.goto]) ?_
    simp only [State.goto, count_snoc]
    simp [Event.hands, Event.submits, Event.setback, Thread.mayHand]
  | enqueue t w q l ht =>
    cases b with
    | false => exact absurd (List.mem_of_getElem? ht) (hb rfl w q l)
    | true =>
      refine h.move (x := .done) ht (extra := []) (by simp [State.goto]) ?_
      simp only [State.goto, count_snoc]
      simp [Event.hands, Event.submits, Event.setback, Thread.mayHand]
  | register t q run ht hr =>
    refine h.move ht (x := .done) rfl ?_
    simp [Event.hands, Event.submits, Event.setback, Thread.mayHand]
    omega
  | connect t i f ht hf =>
    refine h.move (x := .watchReady i) ht (extra := []) (by simp [State.goto]) ?_
    simp [State.goto, Event.hands, Event.submits, Event.setback, Thread.mayHand]

theorem length_removeAttempt (s : State) (a : Nat) : (s.removeAttempt a).runs.length = s.runs.length := by
  simpa using congrArg List.length (map_removeAttempt s a (g := fun _ => ()) (by simp))

/-- Every run is submitted once. -/
theorem Reach.submits {m : Int} {evs : List Event} {s : State} (h : Reach m evs s) (r : Nat) :
    evs.countP (Event.submits r) = if r < s.runs.length then 1 else 0 := by
  have same : ∀ {evs : List Event} {e : Event} {n n' : Nat}, e.submits r = false → n' = n →
      evs.countP (Event.submits r) = (if r < n then 1 else 0) →
      (evs ++ [e]).countP (Event.submits r) = if r < n' then 1 else 0 := by
    intro evs e n n' he hn h
    rw [List.countP_append, h, hn]; simp [he]
  induction h with
  | init => rfl
  | @step evs s a s' e hr hs ih =>
    cases (step_inv hs).1 with
    | submit =>
      rw [List.countP_append, ih]
      by_cases h1 : s.runs.length = r
      · subst h1; simp [Event.submits]
      · have h2 : r < s.runs.length + 1 ↔ r < s.runs.length := by omega
        simp [Event.submits, h1, h2]
    | take => exact same rfl rfl ih
    | rejected => exact same rfl rfl ih
    | resolved => exact same rfl rfl ih
    | quiet t y x e ht hq => exact same (by cases hq <;> rfl) rfl ih
    | write t y q f x e ht hq =>
      exact same (by cases hq <;> rfl) (by simp [State.goto, State.modRun]) ih
    | crash t y q e run ht hr' hm hc => exact same (by rcases hc with ⟨l, -, rfl⟩ | ⟨-, rfl⟩ <;> rfl) rfl ih
    | clPanic => exact same rfl rfl ih
    | rqRemove t w q l a ht =>
      exact same rfl (length_removeAttempt s a) ih
    | clRemove t w q a ht =>
      exact same rfl (length_removeAttempt s a) ih
    | newId => exact same rfl rfl ih
    | add => exact same rfl rfl ih
    | enqueue => exact same rfl rfl ih
    | register => exact same rfl (by simp) ih
    | connect => exact same rfl rfl ih

/-- C24, what holds under every race: a run is handed out at most once more often than runners failed
on it, that is, than its attempts timed out or its uploads ended with an error or a judge error. No race
grades a run again on its own account. -/
theorem C24_every_retry_has_a_cause {m : Int} {evs : List Event} {s : State} (h : Reach m evs s) (r : Nat) :
    evs.countP (Event.hands r) ≤ 1 + evs.countP (Event.setback r) := by
  have key : Paid true r evs s := by
    induction h with
    | init => simp [Paid]
    | step hr hs ih => exact ih.step (step_inv hs).1 (by simp)
  have := h.submits r
  unfold Paid at key
  simp only [if_true] at key
  split_ifs at this <;> omega

/-- What is true of a goroutine when no run may be retried. -/
def Thread.hopeless (s : State) : Thread → Prop
  | .requeue _ r _ (.writeTries n) => n ≤ 1 ∧ r < s.runs.length
  | .requeue _ r _ .test => ∃ run : Run, s.runs[r]? = some run ∧ run.tries ≤ 0
  | .requeue _ _ _ .setLast | .requeue _ _ _ .newId | .requeue _ _ _ (.setId _) | .requeue _ _ _ .enqueue => False
  | _ => True

structure Hopeless (s : State) : Prop where
  tries : ∀ (r : Nat) (run : Run), s.runs[r]? = some run → run.tries ≤ 1
  threads : ∀ y ∈ s.threads, y.hopeless s

/-- Nobody's `tries` grew, apart from new runs. -/
def Shrunk (s s' : State) : Prop :=
  s.runs.length ≤ s'.runs.length ∧ ∀ (r : Nat) (run : Run), s.runs[r]? = some run → run.tries ≤ 0 →
    ∃ run' : Run, s'.runs[r]? = some run' ∧ run'.tries ≤ 0

theorem Thread.hopeless.mono {s s' : State} {y : Thread} (h : y.hopeless s) (hr : Shrunk s s') : y.hopeless s' := by
  unfold Thread.hopeless at *
  split at h
  · exact ⟨h.1, Nat.lt_of_lt_of_le h.2 hr.1⟩
  · obtain ⟨run, h1, h2⟩ := h
    exact hr.2 _ run h1 h2
  all_goals exact h

theorem Hopeless.move {s s' : State} (h : Hopeless s) (hr : Shrunk s s') {t : Nat} {x : Thread}
    {extra : List Thread} (hthr : s'.threads = s.threads.set t x ++ extra) (hx : x.hopeless s')
    (hex : ∀ y ∈ extra, y.hopeless s')
    (ht : ∀ (r : Nat) (run : Run), s'.runs[r]? = some run → run.tries ≤ 1) : Hopeless s' := by
  refine ⟨ht, ?_⟩
  rw [hthr]
  intro y hy
  rcases List.mem_append.mp hy with hy | hy
  · exact mem_set_threads (P := fun y => y.hopeless s') (fun z hz => (h.threads z hz).mono hr) hx y hy
  · exact hex y hy

theorem Hopeless.spawn {s s' : State} (h : Hopeless s) (hr : Shrunk s s')
    {extra : List Thread} (hthr : s'.threads = s.threads ++ extra)
    (hex : ∀ y ∈ extra, y.hopeless s')
    (ht : ∀ (r : Nat) (run : Run), s'.runs[r]? = some run → run.tries ≤ 1) : Hopeless s' := by
  refine ⟨ht, ?_⟩
  rw [hthr]
  intro y hy
  rcases List.mem_append.mp hy with hy | hy
  · exact (h.threads y hy).mono hr
  · exact hex y hy

theorem Shrunk.of_tries {s s' : State} (h : s'.runs.map (·.tries) = s.runs.map (·.tries)) : Shrunk s s' := by
  refine ⟨Nat.le_of_eq (by simpa using (congrArg List.length h).symm), fun r run h1 h2 => ?_⟩
  have := congrArg (·[r]?) h
  simp only [List.getElem?_map, h1] at this
  obtain ⟨run', h3, h4⟩ := Option.map_eq_some_iff.mp this
  exact ⟨run', h3, by rw [h4]; exact h2⟩

theorem tries_of_map {s s' : State} (h : s'.runs.map (·.tries) = s.runs.map (·.tries))
    (ht : ∀ (r : Nat) (run : Run), s.runs[r]? = some run → run.tries ≤ 1) :
    ∀ (r : Nat) (run : Run), s'.runs[r]? = some run → run.tries ≤ 1 := by
  intro r run h1
  have := congrArg (·[r]?) h
  simp only [List.getElem?_map, h1] at this
  obtain ⟨run', h3, h4⟩ := Option.map_eq_some_iff.mp this.symm
  have h5 := ht r run' h3
  rw [h4] at h5
  exact h5

theorem Hopeless.same {s s' : State} (h : Hopeless s) {t : Nat} {x : Thread} {extra : List Thread}
    (hm : s'.runs.map (·.tries) = s.runs.map (·.tries))
    (hthr : s'.threads = s.threads.set t x ++ extra) (hx : x.hopeless s)
    (hex : ∀ y ∈ extra, y.hopeless s) : Hopeless s' :=
  h.move (.of_tries hm) hthr (hx.mono (.of_tries hm)) (fun y hy => (hex y hy).mono (.of_tries hm))
    (tries_of_map hm h.tries)

theorem Quiet.hopeless {s : State} {y x : Thread} {e : Event} (hq : Quiet s y x e) (h : Hopeless s)
    (hy : y.hopeless s) : x.hopeless s := by
  cases hq <;> simp only [Thread.hopeless] at hy ⊢
  case rqCheck run _ => cases run.monitor <;> trivial
  case rqRead run hr => exact ⟨h.tries _ run hr, (List.getElem?_eq_some_iff.mp hr).1⟩
  case rqTest run hr =>
    obtain ⟨run', h1, h2⟩ := hy
    rw [hr] at h1; cases h1
    rw [if_pos h2]; trivial

theorem Hopeless.step {m : Int} (hm : m ≤ 1) {s s' : State} {e : Event} (h : Hopeless s) (hs : Step m s s' e) :
    Hopeless s' := by
  cases hs with
  | submit =>
    refine h.spawn ⟨by simp, fun r run h1 h2 => ⟨run, ?_, h2⟩⟩ rfl (by simp [Thread.hopeless]) ?_
    · exact (List.getElem?_append_left (List.getElem?_eq_some_iff.mp h1).1).trans h1
    · intro r run hr
      have hmem := List.mem_of_getElem? hr
      rcases List.mem_append.mp hmem with h1 | h1
      · obtain ⟨i, hi, rfl⟩ := List.getElem_of_mem h1
        exact h.tries i _ (List.getElem?_eq_getElem hi)
      · rw [List.mem_singleton.mp h1]; exact hm
  | take k r hq => exact h.spawn (.of_tries rfl) rfl (by simp [Thread.hopeless]) h.tries
  | rejected a ha => exact h
  | resolved a i f ha hi => exact h.spawn (.of_tries rfl) rfl (by simp [Thread.hopeless]) h.tries
  | quiet t y x e ht hq =>
    exact h.same (x := x) (extra := []) (t := t) rfl (by simp [State.goto])
      (hq.hopeless h (h.threads y (List.mem_of_getElem? ht))) (by simp)
  | write t y q f x e ht hq =>
    have hy := h.threads y (List.mem_of_getElem? ht)
    cases hq with
    | running => exact h.same (x := .registering q) (extra := []) (t := t) (map_modify (by simp)) (by simp [State.goto, State.modRun]) trivial (by simp)
    | closed w => exact h.same (x := .close w q .check) (extra := []) (t := t) (map_modify (by simp)) (by simp [State.goto, State.modRun]) trivial (by simp)
    | released w q p => exact h.same (x := .close w q (.persist p)) (extra := []) (t := t) (map_modify (by simp)) (by simp [State.goto, State.modRun]) trivial (by simp)
    | last => exact absurd hy (by simp [Thread.hopeless])
    | setId => exact absurd hy (by simp [Thread.hopeless])
    | tries w q l n =>
      obtain ⟨hn, hlt⟩ := hy
      have look : ∀ (i : Nat), (s.runs.modify q fun x => { x with tries := n - 1 })[i]? =
          if q = i then (s.runs[i]?).map (fun x => { x with tries := n - 1 }) else s.runs[i]? := by
        intro i; rw [List.getElem?_modify]; split_ifs <;> simp
      refine h.move (x := .requeue w q l .test) (extra := []) (t := t) ⟨by simp [State.goto, State.modRun], ?_⟩
        (by simp [State.goto, State.modRun]) ?_ (by simp) ?_
      · intro r run h1 h2
        refine ⟨_, (look r).trans (by rw [h1]; exact (apply_ite some _ (_ : Run) _).symm), ?_⟩
        split_ifs
        · simp only; omega
        · exact h2
      · exact ⟨{ s.runs[q] with tries := n - 1 }, (look q).trans (by simp [hlt]), by simp only; omega⟩
      · intro r run hr
        have hr := (look r).symm.trans hr
        split_ifs at hr
        · obtain ⟨run', -, rfl⟩ := Option.map_eq_some_iff.mp hr
          simp only; omega
        · exact h.tries r run hr
  | crash t y q e run ht hr hm hc =>
    exact h.same (x := .done) (extra := []) (t := t) rfl (by simp [State.goto]) trivial (by simp)
  | clPanic t y q run ht hr hm hc =>
    exact h.same (x := .done) (extra := []) (t := t) rfl (by simp [State.goto]) trivial (by simp)
  | rqRemove t w q l a ht =>
    exact h.same (x := .requeue w q l .readTries) (extra := []) (t := t) (map_removeAttempt s a (by simp))
      (by simp [State.goto, threads_removeAttempt]) trivial (by simp)
  | clRemove t w q a ht =>
    exact h.same (x := .close w q (.release true)) (extra := []) (t := t) (map_removeAttempt s a (by simp))
      (by simp [State.goto, threads_removeAttempt]) trivial (by simp)
  | newId t w q l ht => exact absurd (h.threads _ (List.mem_of_getElem? ht)) (by simp [Thread.hopeless])
  | enqueue t w q l ht => exact absurd (h.threads _ (List.mem_of_getElem? ht)) (by simp [Thread.hopeless])
  | add t q ht => exact h.same (x := .done) (extra := []) (t := t) rfl (by simp [State.goto]) trivial (by simp)
  | register t q run ht hr =>
    exact h.same (x := .done) (extra := [.watchConnect s.inflights.length]) (t := t) (map_modify (by simp)) rfl trivial
      (by simp [Thread.hopeless])
  | connect t i f ht hf =>
    exact h.same (x := .watchReady i) (extra := []) (t := t) rfl (by simp [State.goto]) trivial (by simp)

/-- C24 holds under every race when `MaxGradeRetries` is at most 1: a run is handed out at most once. -/
theorem C24_single_attempt {m : Int} (hm : m ≤ 1) {evs : List Event} {s : State} (h : Reach m evs s) (r : Nat) :
    evs.countP (Event.hands r) ≤ 1 := by
  have key : Paid false r evs s ∧ Hopeless s := by
    induction h with
    | init => exact ⟨by simp [Paid], ⟨by simp, by simp⟩⟩
    | step hr hs ih =>
      refine ⟨ih.1.step (step_inv hs).1 fun _ w q l hc => ?_, ih.2.step hm (step_inv hs).1⟩
      exact absurd (ih.2.threads _ hc) (by simp [Thread.hopeless])
  have := h.submits r
  have := key.1
  unfold Paid at this
  simp only [Bool.false_eq_true, if_false] at this
  split_ifs at * <;> omega

/-- C24 under races, exactly: the limit holds in every execution if and only if it is at most 1. -/
theorem C24_limit_iff (m : Int) :
    (∀ evs s, Reach m evs s → ∀ r, (evs.countP (Event.hands r) : Int) ≤ max 1 m) ↔ m ≤ 1 := by
  constructor
  · intro h
    by_contra hm
    obtain ⟨evs, s, hr, hn⟩ := C24_race_unbounded m (by omega) (max 1 m).toNat
    have := h evs s hr 0
    omega
  · intro hm evs s hr r
    have := C24_single_attempt hm hr r
    omega

/-- The two sides of `C24_every_retry_has_a_cause` meet: one failed upload, two hand-outs. -/
example : ∃ evs s, Reach 3 evs s ∧ evs.countP (Event.hands 0) = 2 ∧ evs.countP (Event.setback 0) = 1 := by
  obtain ⟨p, hp⟩ : ∃ p, exec 3 (handOut ++ [.upload 1, .retry 3] ++ List.replicate 10 (.step 3) ++
    [.take 0, .step 4, .step 4]) = some p := ⟨_, rfl⟩
  exact ⟨p.1, p.2, reach_of_exec hp, by cases hp; decide, by cases hp; decide⟩

/-- With `MaxGradeRetries = 1` and two uploads failing at once. -/
example : ∃ evs s, Reach 1 evs s ∧ evs.countP (Event.hands 0) = 1 ∧ evs.countP (Event.setback 0) = 2 ∧
    .removed 0 ∈ evs := by
  obtain ⟨p, hp⟩ : ∃ p, exec 1 (handOut ++ [.upload 1, .upload 1, .retry 3, .retry 4] ++
    [.step 3, .step 3, .step 3, .step 3, .step 4, .step 4] ++ List.replicate 9 (.step 3) ++
    List.replicate 3 (.step 4)) = some p := ⟨_, rfl⟩
  exact ⟨p.1, p.2, reach_of_exec hp, by cases hp; decide, by cases hp; decide, by cases hp; decide⟩

end Quark.Lifecycle
