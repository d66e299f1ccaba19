import Verif.Lifecycle.Once

/-!
# Inversion of the step function

What a step from `s` by goroutine `t` can be, as a relation. Only used in proofs.
-/

namespace Quark.Lifecycle

/-- Steps that change nothing but the goroutine's position. `run` is the state of the run. -/
inductive Quiet (s : State) : Thread → Thread → Event → Prop
  | gettingAgain (r run) : s.runs[r]? = some run → run.running = true →
      Quiet s (.getting r) (.registering r) .tau
  | watchDone (i f) : s.inflights[i]? = some f → f.ready = true → Quiet s (.watchReady i) .done .tau
  | uploaded (r a) : Quiet s (.handling r a) (.close false r .swap) (.uploaded r a)
  | failed (r a) : Quiet s (.handling r a) (.requeue false r false .check) (.failed r a)
  | judgeError (r a) : Quiet s (.handling r a) (.requeue false r true .check) (.judgeError r a)
  | aborted (r a) : Quiet s (.handling r a) .done (.aborted r a)
  | fireConnect (i f) : s.inflights[i]? = some f →
      Quiet s (.watchConnect i) (.requeue true f.run false .check) (.timedOut f.run f.attempt)
  | fireReady (i f) : s.inflights[i]? = some f →
      Quiet s (.watchReady i) (.requeue true f.run false .check) (.timedOut f.run f.attempt)
  | full (w r l) : Quiet s (.requeue w r l .enqueue) (.close w r .swap) .tau
  | notPersisted (w r p) : Quiet s (.close w r (.persist p)) (.close w r .event) (.notPersisted r)
  | rqCheck (w r l run) : s.runs[r]? = some run → Quiet s (.requeue w r l .check)
      (.requeue w r l (if run.monitor then .callRemove else .readTries)) .tau
  | rqCall (w r l run) : s.runs[r]? = some run → run.monitor = true → Quiet s (.requeue w r l .callRemove)
      (.requeue w r l (.remove run.attempt)) .tau
  | rqPanic (r l run) : s.runs[r]? = some run → run.monitor = false →
      Quiet s (.requeue false r l .callRemove) .done (.panicked r)
  | rqRead (w r l run) : s.runs[r]? = some run → Quiet s (.requeue w r l .readTries)
      (.requeue w r l (.writeTries run.tries)) .tau
  | rqTest (w r l run) : s.runs[r]? = some run → Quiet s (.requeue w r l .test)
      (if run.tries ≤ 0 then .close w r .swap else .requeue w r l .setLast) .tau
  | rqNotLast (w r) : Quiet s (.requeue w r false .setLast) (.requeue w r false .newId) .tau
  | clAgain (w r run) : s.runs[r]? = some run → run.closed = true →
      Quiet s (.close w r .swap) .done (.alreadyClosed r)
  | clCheck (w r run) : s.runs[r]? = some run → Quiet s (.close w r .check)
      (.close w r (if run.monitor then .getPost else .release false)) .tau
  | clGetPost (w r run) : s.runs[r]? = some run → run.monitor = true →
      Quiet s (.close w r .getPost) (.close w r .callRemove) .tau
  | clCall (w r run) : s.runs[r]? = some run → run.monitor = true →
      Quiet s (.close w r .callRemove) (.close w r (.remove run.attempt)) .tau
  | clNoInput (w r p run) : s.runs[r]? = some run → run.input = false →
      Quiet s (.close w r (.release p)) (.close w r (.persist p)) .tau
  | clPersist (w r p) : Quiet s (.close w r (.persist p)) (.close w r (.signal p)) .tau
  | clSignal (w r p) : Quiet s (.close w r (.signal p)) (.close w r (.post p)) (.ready r)
  | clPost (w r) : Quiet s (.close w r (.post true)) (.close w r .event) (.posted r)
  | clNoPost (w r) : Quiet s (.close w r (.post false)) (.close w r .event) .tau
  | clEvent (w r) : Quiet s (.close w r .event) .done (.removed r)

/-- Steps of goroutine `t` that change fields of one run. -/
inductive Write (s : State) : Thread → Nat → (Run → Run) → Thread → Event → Prop
  | running (r run) : s.runs[r]? = some run → run.running = false →
      Write s (.getting r) r (fun x => { x with running := true }) (.registering r) (.running r)
  | tries (w r l n) : Write s (.requeue w r l (.writeTries n)) r (fun x => { x with tries := n - 1 })
      (.requeue w r l .test) .tau
  | last (w r) : Write s (.requeue w r true .setLast) r (fun x => { x with tries := 1 })
      (.requeue w r true .newId) .tau
  | setId (w r l a) : Write s (.requeue w r l (.setId a)) r (fun x => { x with attempt := a })
      (.requeue w r l .enqueue) .tau
  | closed (w r run) : s.runs[r]? = some run → run.closed = false →
      Write s (.close w r .swap) r (fun x => { x with closed := true }) (.close w r .check) (.closed r)
  | released (w r p run) : s.runs[r]? = some run → run.input = true →
      Write s (.close w r (.release p)) r (fun x => { x with input := false }) (.close w r (.persist p))
        (.released r)

inductive Step (m : Int) (s : State) : State → Event → Prop
  | submit : Step m s { s with
        lastId := s.lastId + 1
        runs := s.runs ++ [{ tries := m, attempt := s.lastId + 1 }]
        threads := s.threads ++ [.adding s.runs.length] } (.submitted s.runs.length)
  | take (k r) : s.queue[k]? = some r →
      Step m s { s with queue := s.queue.eraseIdx k, threads := s.threads ++ [.getting r] } (.taken r)
  | rejected (a) : s.mapping a = none → Step m s s (.rejected a)
  | resolved (a i f) : s.mapping a = some i → s.inflights[i]? = some f →
      Step m s { s with
        inflights := s.inflights.set i { f with connected := true }
        threads := s.threads ++ [.handling f.run a] } (.resolved f.run a)
  | quiet (t y x e) : s.threads[t]? = some y → Quiet s y x e → Step m s (s.goto t x) e
  | write (t y r f x e) : s.threads[t]? = some y → Write s y r f x e →
      Step m s ((s.modRun r f).goto t x) e
  | crash (t y r e) (run) : s.threads[t]? = some y → s.runs[r]? = some run → run.monitor = false →
      (∃ l, y = .requeue true r l .callRemove ∧ e = .crashed r) ∨
        (y = .close true r .getPost ∨ y = .close true r .callRemove) ∧ e = .removed r →
      Step m s ({ s with crashed := true }.goto t .done) e
  | clPanic (t y r) (run) : s.threads[t]? = some y → s.runs[r]? = some run → run.monitor = false →
      (y = .close false r .getPost ∨ y = .close false r .callRemove) →
      Step m s (s.goto t .done) (.removed r)
  | rqRemove (t w r l a) : s.threads[t]? = some (.requeue w r l (.remove a)) →
      Step m s ((s.removeAttempt a).goto t (.requeue w r l .readTries)) (.dropped a)
  | clRemove (t w r a) : s.threads[t]? = some (.close w r (.remove a)) →
      Step m s ((s.removeAttempt a).goto t (.close w r (.release true))) (.dropped a)
  | newId (t w r l) : s.threads[t]? = some (.requeue w r l .newId) →
      Step m s ({ s with lastId := s.lastId + 1 }.goto t (.requeue w r l (.setId (s.lastId + 1)))) .tau
  | add (t r) : s.threads[t]? = some (.adding r) →
      Step m s ({ s with queue := s.queue ++ [r] }.goto t .done) (.queued r)
  | enqueue (t w r l) : s.threads[t]? = some (.requeue w r l .enqueue) →
      Step m s ({ s with queue := s.queue ++ [r] }.goto t .done) (.queued r)
  | register (t r run) : s.threads[t]? = some (.registering r) → s.runs[r]? = some run →
      Step m s { s with
            inflights := s.inflights ++ [{ run := r, attempt := run.attempt }]
            runs := s.runs.modify r fun x => { x with monitor := true }
            mapping := Function.update s.mapping run.attempt (some s.inflights.length)
            threads := s.threads.set t Thread.done ++ [Thread.watchConnect s.inflights.length] }
          (.handed r run.attempt)
  | connect (t i : Nat) (f : Inflight) : s.threads[t]? = some (.watchConnect i) → s.inflights[i]? = some f →
      Step m s ({ s with inflights := s.inflights.set i { f with connected := false } }.goto t
        (.watchReady i)) .tau

theorem step_inv {m : Int} {s s' : State} {a : Act} {e : Event}
    (hs : step m s a = some (s', e)) : Step m s s' e ∧ s.crashed = false := by
  unfold step at hs
  split_ifs at hs with hcr
  refine ⟨?_, by simpa using hcr⟩
  cases a with
  | submit => cases hs; exact .submit
  | take k =>
    simp only at hs
    split at hs
    · cases hs
    · rename_i r hr; cases hs; exact .take k r hr
  | upload a =>
    simp only at hs
    split at hs
    · rename_i ha; cases hs; exact .rejected a ha
    · rename_i i hi
      split at hs
      · cases hs
      · rename_i f hf; cases hs; exact .resolved a i f hi hf
  | step t =>
    simp only at hs
    split at hs
    · rename_i r ht; cases hs; exact .add t r ht
    · rename_i r ht
      split at hs
      · cases hs
      · rename_i run hrun
        split_ifs at hs with hr
        · cases hs; exact .quiet _ _ _ _ ht (.gettingAgain r run hrun hr)
        · cases hs; exact .write _ _ _ _ _ _ ht (.running r run hrun (by simpa using hr))
    · rename_i r ht
      split at hs
      · cases hs
      · rename_i run hrun; cases hs; exact .register t r run ht hrun
    · rename_i i ht
      split at hs
      · cases hs
      · rename_i f hf
        split_ifs at hs with hc
        cases hs; exact .connect t i f ht hf
    · rename_i i ht
      split at hs
      · cases hs
      · rename_i f hf
        split_ifs at hs with hc
        cases hs; exact .quiet _ _ _ _ ht (.watchDone i f hf hc)
    · rename_i r a ht; cases hs; exact .quiet _ _ _ _ ht (.uploaded r a)
    · rename_i w r last pc ht
      obtain ⟨run, hrun, hs⟩ := Option.map_eq_some_iff.mp hs
      cases pc with
      | check => cases hs; exact .quiet _ _ _ _ ht (.rqCheck w r last run hrun)
      | callRemove =>
        simp only [stepRequeue] at hs
        split_ifs at hs with hm
        · cases hs; exact .quiet _ _ _ _ ht (.rqCall w r last run hrun hm)
        · cases w with
          | false =>
            cases hs; exact .quiet _ _ _ _ ht (.rqPanic r last run hrun (by simpa using hm))
          | true =>
            cases hs
            exact .crash t _ r _ run ht hrun (by simpa using hm) (.inl ⟨last, rfl, rfl⟩)
      | remove a => cases hs; exact .rqRemove t w r last a ht
      | readTries => cases hs; exact .quiet _ _ _ _ ht (.rqRead w r last run hrun)
      | writeTries n => cases hs; exact .write _ _ _ _ _ _ ht (.tries w r last n)
      | test => cases hs; exact .quiet _ _ _ _ ht (.rqTest w r last run hrun)
      | setLast =>
        cases last with
        | false => cases hs; exact .quiet _ _ _ _ ht (.rqNotLast w r)
        | true => cases hs; exact .write _ _ _ _ _ _ ht (.last w r)
      | newId => cases hs; exact .newId t w r last ht
      | setId a => cases hs; exact .write _ _ _ _ _ _ ht (.setId w r last a)
      | enqueue => cases hs; exact .enqueue t w r last ht
    · rename_i w r pc ht
      obtain ⟨run, hrun, hs⟩ := Option.map_eq_some_iff.mp hs
      cases pc with
      | swap =>
        simp only [stepClose] at hs
        split_ifs at hs with hm
        · cases hs; exact .quiet _ _ _ _ ht (.clAgain w r run hrun hm)
        · cases hs; exact .write _ _ _ _ _ _ ht (.closed w r run hrun (by simpa using hm))
      | check => cases hs; exact .quiet _ _ _ _ ht (.clCheck w r run hrun)
      | getPost =>
        simp only [stepClose] at hs
        split_ifs at hs with hm
        · cases hs; exact .quiet _ _ _ _ ht (.clGetPost w r run hrun hm)
        · cases w with
          | false =>
            simp only [Bool.or_false] at hs
            cases hs; exact .clPanic t _ r run ht hrun (by simpa using hm) (.inl rfl)
          | true =>
            simp only [Bool.or_true] at hs
            cases hs
            exact .crash t _ r _ run ht hrun (by simpa using hm) (.inr ⟨.inl rfl, rfl⟩)
      | callRemove =>
        simp only [stepClose] at hs
        split_ifs at hs with hm
        · cases hs; exact .quiet _ _ _ _ ht (.clCall w r run hrun hm)
        · cases w with
          | false =>
            simp only [Bool.or_false] at hs
            cases hs; exact .clPanic t _ r run ht hrun (by simpa using hm) (.inr rfl)
          | true =>
            simp only [Bool.or_true] at hs
            cases hs
            exact .crash t _ r _ run ht hrun (by simpa using hm) (.inr ⟨.inr rfl, rfl⟩)
      | remove a => cases hs; exact .clRemove t w r a ht
      | release p =>
        simp only [stepClose] at hs
        split_ifs at hs with hm
        · cases hs; exact .write _ _ _ _ _ _ ht (.released w r p run hrun hm)
        · cases hs; exact .quiet _ _ _ _ ht (.clNoInput w r p run hrun (by simpa using hm))
      | persist p => cases hs; exact .quiet _ _ _ _ ht (.clPersist w r p)
      | signal p => cases hs; exact .quiet _ _ _ _ ht (.clSignal w r p)
      | post p =>
        cases p with
        | false => cases hs; exact .quiet _ _ _ _ ht (.clNoPost w r)
        | true => cases hs; exact .quiet _ _ _ _ ht (.clPost w r)
      | event => cases hs; exact .quiet _ _ _ _ ht (.clEvent w r)
    · cases hs
    · cases hs
  | fail t =>
    simp only at hs
    split at hs
    · rename_i i ht
      obtain ⟨f, hf, hs⟩ := Option.map_eq_some_iff.mp hs
      cases hs; exact .quiet _ _ _ _ ht (.fireConnect i f hf)
    · rename_i i ht
      obtain ⟨f, hf, hs⟩ := Option.map_eq_some_iff.mp hs
      cases hs; exact .quiet _ _ _ _ ht (.fireReady i f hf)
    · rename_i r a ht; cases hs; exact .quiet _ _ _ _ ht (.aborted r a)
    · rename_i w r l ht; cases hs; exact .quiet _ _ _ _ ht (.full w r l)
    · rename_i w r p ht; cases hs; exact .quiet _ _ _ _ ht (.notPersisted w r p)
    · cases hs
  | retry t =>
    simp only at hs
    split at hs
    · rename_i r a ht; cases hs; exact .quiet _ _ _ _ ht (.failed r a)
    · cases hs
  | judgeError t =>
    simp only at hs
    split at hs
    · rename_i r a ht; cases hs; exact .quiet _ _ _ _ ht (.judgeError r a)
    · cases hs

end Quark.Lifecycle
