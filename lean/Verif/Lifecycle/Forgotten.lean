import Verif.Lifecycle.Races

/-!
# C67: no open run is forgotten, under every interleaving
-/

namespace Quark.Lifecycle

/-- A goroutine that has the run in its hands and will put it somewhere: adding it, handing it out,
requeuing it or about to close it. A request handler at the two places of `Requeue` where it may still
dereference a nil monitor, panic and vanish does not count; nor does a handler reading its request. -/
def Thread.carries (r : Nat) : Thread → Bool
  | .adding q | .getting q | .registering q => q == r
  | .requeue true q _ _ => q == r
  | .requeue false _ _ .check | .requeue false _ _ .callRemove => false
  | .requeue false q _ _ => q == r
  | .close _ q .swap => q == r
  | _ => false

/-- Somebody or something takes care of run `r`: the queue, a goroutine, or a watchdog whose entry has not
been signalled, so that its timer is still going to fire. -/
def State.Cares (s : State) (r : Nat) : Prop :=
  r ∈ s.queue ∨ (∃ x ∈ s.threads, x.carries r = true) ∨
    ∃ i f, (.watchConnect i ∈ s.threads ∨ .watchReady i ∈ s.threads) ∧ s.inflights[i]? = some f ∧
      f.run = r ∧ f.ready = false

def Cared (s : State) : Prop :=
  s.crashed = false → ∀ r, r < s.runs.length → s.isClosed r = false → s.Cares r

theorem mem_set_keep {l : List Thread} {t : Nat} {y x z : Thread} (ht : l[t]? = some y) (hz : z ∈ l)
    (hne : z ≠ y) : z ∈ l.set t x := by
  obtain ⟨u, hu, rfl⟩ := List.getElem_of_mem hz
  refine List.mem_iff_getElem.mpr ⟨u, by simpa using hu, ?_⟩
  rw [List.getElem_set_ne]
  rintro rfl
  exact hne (List.getElem?_eq_some_iff.mp ht).2

theorem mem_set_new {l : List Thread} {t : Nat} {y x : Thread} (ht : l[t]? = some y) : x ∈ l.set t x :=
  List.mem_iff_getElem.mpr ⟨t, by simpa using (List.getElem?_eq_some_iff.mp ht).1, by simp⟩

theorem State.Cares.move {s s' : State} {r : Nat} (h : s.Cares r) {t : Nat} {y x : Thread}
    {extra : List Thread} (ht : s.threads[t]? = some y) (hthr : s'.threads = s.threads.set t x ++ extra)
    (hq : r ∈ s.queue → r ∈ s'.queue)
    (hc : y.carries r = true → s'.Cares r)
    (hw : ∀ i f, s.inflights[i]? = some f → f.run = r → f.ready = false →
      s'.Cares r ∨ (y ≠ .watchConnect i ∧ y ≠ .watchReady i ∨ x = .watchReady i) ∧
      ∃ g, s'.inflights[i]? = some g ∧ g.run = r ∧ g.ready = false) : s'.Cares r := by
  have keep : ∀ z ∈ s.threads, z ≠ y → z ∈ s'.threads := fun z hz hne => by
    rw [hthr]; exact List.mem_append_left _ (mem_set_keep ht hz hne)
  have hx : x ∈ s'.threads := by
    rw [hthr]; exact List.mem_append_left _ (mem_set_new ht)
  rcases h with h | ⟨z, hz, hzr⟩ | ⟨i, f, hi, hf, hr, hfr⟩
  · exact .inl (hq h)
  · by_cases hzy : z = y
    · subst hzy; exact hc hzr
    · exact .inr (.inl ⟨z, keep z hz hzy, hzr⟩)
  · rcases hw i f hf hr hfr with h1 | ⟨h1, g, h2⟩
    · exact h1
    · refine .inr (.inr ⟨i, g, ?_, h2⟩)
      rcases h1 with ⟨h3, h4⟩ | h3
      · exact hi.imp (fun h => keep _ h (Ne.symm h3)) (fun h => keep _ h (Ne.symm h4))
      · subst h3; exact .inr hx

theorem Quiet.carries {s : State} {y x : Thread} {e : Event} (h : Quiet s y x e) {r : Nat}
    (hopen : s.isClosed r = false) (hc : y.carries r = true) : x.carries r = true := by
  have hcl : ∀ q run, s.runs[q]? = some run → run.closed = true → q ≠ r := by
    rintro q run h1 h2 rfl
    simp [State.isClosed, h1, h2] at hopen
  cases h <;> first | (simp [Thread.carries] at hc; done) | (simpa [Thread.carries] using hc; done) | skip
  case rqCheck w q l run hr =>
    cases w
    · simp [Thread.carries] at hc
    · simpa [Thread.carries] using hc
  case full w q l => cases w <;> simpa [Thread.carries] using hc
  case rqCall w q l run hr hm =>
    cases w
    · simp [Thread.carries] at hc
    · simpa [Thread.carries] using hc
  case rqRead w q l run hr => cases w <;> simpa [Thread.carries] using hc
  case rqTest w q l run hr => cases w <;> split <;> simpa [Thread.carries] using hc
  case rqNotLast w q => cases w <;> simpa [Thread.carries] using hc
  case clAgain w q run h1 h2 =>
    have := hcl q run h1 h2
    simp [Thread.carries] at hc
    exact absurd hc this

theorem Write.carries {s : State} {y x : Thread} {q r : Nat} {f : Run → Run} {e : Event}
    (h : Write s y q f x e) (hopen : (s.modRun q f).isClosed r = false) (hc : y.carries r = true) :
    x.carries r = true := by
  cases h <;> first | (simp [Thread.carries] at hc; done) | (simpa [Thread.carries] using hc; done) | skip
  case tries w l n => cases w <;> simpa [Thread.carries] using hc
  case last w => cases w <;> simpa [Thread.carries] using hc
  case setId w l a => cases w <;> simpa [Thread.carries] using hc
  case closed w run h1 h2 =>
    simp [Thread.carries] at hc
    subst hc
    simp [State.isClosed, State.modRun, h2] at hopen

theorem Write.opens {s : State} {y x : Thread} {q r : Nat} {f : Run → Run} {e : Event}
    (h : Write s y q f x e) (hopen : (s.modRun q f).isClosed r = false) : s.isClosed r = false := by
  by_contra hc
  simp only [Bool.not_eq_false] at hc
  simp only [State.isClosed, State.modRun, List.getElem?_modify] at hopen hc
  cases hr : s.runs[r]? with
  | none => simp [hr] at hc
  | some run =>
    rw [hr] at hopen hc
    simp at hc
    cases h <;> split at hopen <;> simp [hc] at hopen

/-- `Remove` of an attempt of run `q` signals only entries of run `q`. -/
theorem remove_entry {own : Nat → Nat} {evs : List Event} {s : State} (h : Ids own evs s) {a q : Nat}
    (ha : own a = q) {i : Nat} {f : Inflight} (hf : s.inflights[i]? = some f) (hq : f.run ≠ q) :
    (s.removeAttempt a).inflights[i]? = some f := by
  unfold State.removeAttempt
  split
  · exact hf
  · rename_i j hj
    obtain ⟨g, hg, hga⟩ := h.mapping a j hj
    rw [hg]
    have hij : j ≠ i := by
      rintro rfl
      rw [hf] at hg
      cases hg
      have := (h.inflights f (List.mem_of_getElem? hf)).1
      rw [hga, ha] at this
      exact hq this.symm
    simp only
    rw [List.getElem?_set_ne hij]
    exact hf

theorem queue_removeAttempt (s : State) (a : Nat) : (s.removeAttempt a).queue = s.queue := by
  unfold State.removeAttempt
  split
  · rfl
  · split <;> rfl

theorem Cared.step {m : Int} {own : Nat → Nat} {evs : List Event} {s s' : State} {e : Event}
    (h : Cared s) (hid : Ids own evs s) (honce : Once evs s) (hcr : s.crashed = false)
    (hs : Step m s s' e) : Cared s' := by
  replace h := h hcr
  intro hcr' r hlt hopen
  cases hs with
  | submit =>
    simp only [List.length_append, List.length_singleton] at hlt
    by_cases hr : r = s.runs.length
    · subst hr
      exact .inr (.inl ⟨.adding s.runs.length, by simp, by simp [Thread.carries]⟩)
    · have hlt' : r < s.runs.length := by omega
      have hopen' : s.isClosed r = false := by
        simp only [State.isClosed, List.getElem?_append_left hlt'] at hopen ⊢
        exact hopen
      rcases h r hlt' hopen' with h1 | ⟨x, hx, h1⟩ | ⟨i, f, h1, h2⟩
      · exact .inl h1
      · exact .inr (.inl ⟨x, by simp [hx], h1⟩)
      · exact .inr (.inr ⟨i, f, h1.imp (fun h => by simp [h]) (fun h => by simp [h]), h2⟩)
  | take k q hk =>
    by_cases hr : r = q
    · subst hr
      exact .inr (.inl ⟨.getting r, by simp, by simp [Thread.carries]⟩)
    · rcases h r hlt hopen with h1 | ⟨x, hx, h1⟩ | ⟨i, f, h1, h2⟩
      · refine .inl ?_
        obtain ⟨u, hu, hur⟩ := List.getElem_of_mem h1
        have huk : u ≠ k := by
          rintro rfl
          rw [List.getElem?_eq_getElem hu] at hk
          cases hk
          exact hr hur.symm
        exact List.mem_eraseIdx_iff_getElem?.mpr ⟨u, huk, by rw [List.getElem?_eq_getElem hu, hur]⟩
      · exact .inr (.inl ⟨x, by simp [hx], h1⟩)
      · exact .inr (.inr ⟨i, f, h1.imp (fun h => by simp [h]) (fun h => by simp [h]), h2⟩)
  | rejected a ha => exact h r hlt hopen
  | resolved a i f ha hf =>
    rcases h r hlt hopen with h1 | ⟨x, hx, h1⟩ | ⟨j, g, h1, h2, h3, h4⟩
    · exact .inl h1
    · exact .inr (.inl ⟨x, by simp [hx], h1⟩)
    · have h5 : .watchConnect j ∈ s.threads ++ [.handling f.run a] ∨
          .watchReady j ∈ s.threads ++ [.handling f.run a] :=
        h1.imp (fun h => by simp [h]) (fun h => by simp [h])
      by_cases hij : i = j
      · subst hij
        rw [hf] at h2
        cases h2
        exact .inr (.inr ⟨i, _, h5, List.getElem?_set_self (List.getElem?_eq_some_iff.mp hf).1, h3, h4⟩)
      · exact .inr (.inr ⟨j, g, h5, by rw [List.getElem?_set_ne hij]; exact h2, h3, h4⟩)
  | quiet t y x e ht hq =>
    refine (h r hlt hopen).move (x := x) (extra := []) ht (by simp [State.goto]) id ?_ ?_
    · intro hc
      exact .inr (.inl ⟨x, mem_set_new ht, hq.carries hopen hc⟩)
    · intro i f hf hr hfr
      by_cases hy : y = .watchConnect i ∨ y = .watchReady i
      · left
        rcases hy with rfl | rfl
        · cases hq with
          | fireConnect _ f' hf' =>
            rw [hf] at hf'; cases hf'
            exact .inr (.inl ⟨_, mem_set_new ht, by simp [Thread.carries, hr]⟩)
        · cases hq with
          | fireReady _ f' hf' =>
            rw [hf] at hf'; cases hf'
            exact .inr (.inl ⟨_, mem_set_new ht, by simp [Thread.carries, hr]⟩)
          | watchDone _ f' hf' hrd =>
            rw [hf] at hf'; cases hf'
            rw [hfr] at hrd; cases hrd
      · right
        push Not at hy
        exact ⟨.inl hy, f, hf, hr, hfr⟩
  | write t y q f x e ht hw =>
    refine (h r (by simpa [State.goto, State.modRun] using hlt) (hw.opens hopen)).move (x := x) (extra := [])
      ht (by simp [State.goto, State.modRun]) id ?_ ?_
    · intro hc
      exact .inr (.inl ⟨x, mem_set_new ht, hw.carries hopen hc⟩)
    · intro i f hf hr hfr
      exact .inr ⟨.inl (by constructor <;> rintro rfl <;> cases hw), f, hf, hr, hfr⟩
  | crash t y q e run ht hrun hmon hor => simp [State.goto] at hcr'
  | clPanic t y q run ht hrun hmon hor =>
    refine (h r hlt hopen).move (x := .done) (extra := []) ht (by simp [State.goto]) id ?_ ?_
    · intro hc
      rcases hor with rfl | rfl <;> simp [Thread.carries] at hc
    · intro i f hf hr hfr
      exact .inr ⟨.inl (by constructor <;> rintro rfl <;> simp at hor), f, hf, hr, hfr⟩
  | rqRemove t w q l a ht =>
    have hmap : (s.removeAttempt a).runs.map (·.closed) = s.runs.map (·.closed) :=
      map_removeAttempt s a (fun _ => rfl)
    have hown := (hid.uses _ (List.mem_of_getElem? ht) q a (.rqRemove w q l a)).1
    have hlt' : r < s.runs.length := by
      have := congrArg List.length hmap
      simp only [List.length_map] at this
      rw [← this]; exact hlt
    have hopen' : s.isClosed r = false := by rw [← isClosed_congr hmap r]; exact hopen
    have hnew : Thread.requeue w q l .readTries ∈
        ((s.removeAttempt a).goto t (.requeue w q l .readTries)).threads := by
      simp only [State.goto, threads_removeAttempt]; exact mem_set_new ht
    have hmine : r = q → ((s.removeAttempt a).goto t (.requeue w q l .readTries)).Cares r := fun hr =>
      .inr (.inl ⟨_, hnew, by cases w <;> simp [Thread.carries, hr]⟩)
    refine (h r hlt' hopen').move (x := .requeue w q l .readTries) (extra := []) ht
      (by simp [State.goto, threads_removeAttempt]) ?_ ?_ ?_
    · intro h1
      simp only [State.goto, queue_removeAttempt]; exact h1
    · intro hc
      refine hmine ?_
      cases w <;> simp [Thread.carries] at hc <;> exact hc.symm
    · intro i f hf hr hfr
      by_cases hrq : r = q
      · exact .inl (hmine hrq)
      · exact .inr ⟨.inl (by simp), f, remove_entry hid hown hf (by rw [hr]; exact hrq), hr, hfr⟩
  | clRemove t w q a ht =>
    have hmap : (s.removeAttempt a).runs.map (·.closed) = s.runs.map (·.closed) :=
      map_removeAttempt s a (fun _ => rfl)
    have hown := (hid.uses _ (List.mem_of_getElem? ht) q a (.clRemove w q a)).1
    have hlt' : r < s.runs.length := by
      have := congrArg List.length hmap
      simp only [List.length_map] at this
      rw [← this]; exact hlt
    have hopen' : s.isClosed r = false := by rw [← isClosed_congr hmap r]; exact hopen
    have hrq : r ≠ q := by
      rintro rfl
      have h1 := honce.removed r
      rw [hopen'] at h1
      have h2 : 0 < s.threads.countP (Shot.removed.holds r) :=
        List.countP_pos_iff.mpr ⟨_, List.mem_of_getElem? ht, by simp [Shot.holds, Shot.pending]⟩
      rw [if_neg (by simp)] at h1
      omega
    refine (h r hlt' hopen').move (x := .close w q (.release true)) (extra := []) ht
      (by simp [State.goto, threads_removeAttempt]) ?_ ?_ ?_
    · intro h1
      simp only [State.goto, queue_removeAttempt]; exact h1
    · intro hc
      simp [Thread.carries] at hc
    · intro i f hf hr hfr
      exact .inr ⟨.inl (by simp), f, remove_entry hid hown hf (by rw [hr]; exact hrq), hr, hfr⟩
  | newId t w q l ht =>
    refine (h r hlt hopen).move (x := .requeue w q l (.setId (s.lastId + 1))) (extra := []) ht
      (by simp [State.goto]) id ?_ ?_
    · intro hc
      exact .inr (.inl ⟨_, mem_set_new ht, by cases w <;> simpa [Thread.carries] using hc⟩)
    · intro i f hf hr hfr
      exact .inr ⟨.inl (by simp), f, hf, hr, hfr⟩
  | add t q ht =>
    refine (h r hlt hopen).move (x := .done) (extra := []) ht
      (by simp [State.goto]) (fun h1 => by simp [State.goto, h1]) ?_ ?_
    · intro hc
      exact .inl (by simp [Thread.carries] at hc; simp [State.goto, hc])
    · intro i f hf hr hfr
      exact .inr ⟨.inl (by simp), f, hf, hr, hfr⟩
  | enqueue t w q l ht =>
    refine (h r hlt hopen).move (x := .done) (extra := []) ht
      (by simp [State.goto]) (fun h1 => by simp [State.goto, h1]) ?_ ?_
    · intro hc
      exact .inl (by cases w <;> simp [Thread.carries] at hc <;> simp [State.goto, hc])
    · intro i f hf hr hfr
      exact .inr ⟨.inl (by simp), f, hf, hr, hfr⟩
  | register t q run ht hrun =>
    have hmap : (s.runs.modify q fun x => { x with monitor := true }).map (·.closed) =
        s.runs.map (·.closed) := map_modify (fun _ => rfl)
    have hlt' : r < s.runs.length := by simpa using hlt
    have hopen' : s.isClosed r = false := by
      rw [← hopen]
      simp only [State.isClosed]
      rw [← List.getElem?_map, ← List.getElem?_map, hmap]
    refine (h r hlt' hopen').move (x := .done) (extra := [.watchConnect s.inflights.length]) ht
      rfl id ?_ ?_
    · intro hc
      simp [Thread.carries] at hc
      refine .inr (.inr ⟨s.inflights.length, { run := q, attempt := run.attempt }, .inl (by simp), by simp,
        hc, rfl⟩)
    · intro i f hf hr hfr
      have hlt := (List.getElem?_eq_some_iff.mp hf).1
      exact .inr ⟨.inl (by simp), f, by simp only [List.getElem?_append_left hlt]; exact hf, hr, hfr⟩
  | connect t j f ht hf =>
    refine (h r hlt hopen).move (x := .watchReady j) (extra := []) ht
      (by simp [State.goto]) id ?_ ?_
    · intro hc
      simp [Thread.carries] at hc
    · intro i g hg hr hfr
      refine .inr ⟨?_, ?_⟩
      · by_cases hij : i = j
        · exact .inr (by rw [hij])
        · exact .inl (by simp [Ne.symm hij])
      · by_cases hij : j = i
        · subst hij
          rw [hf] at hg
          cases hg
          exact ⟨_, List.getElem?_set_self (List.getElem?_eq_some_iff.mp hf).1, hr, hfr⟩
        · exact ⟨g, by simp only [State.goto]; rw [List.getElem?_set_ne hij]; exact hg, hr, hfr⟩

theorem Reach.cared {m : Int} {evs : List Event} {s : State} (h : Reach m evs s) : Cared s := by
  induction h with
  | init => intro _ r hr; simp at hr
  | step hr hs ih =>
    obtain ⟨own, hid⟩ := hr.ids
    exact ih.step hid hr.once (step_inv hs).2 (step_inv hs).1

/-- C67: no run is forgotten, whatever the interleaving of timeouts, uploads and requests. While the grader
is up, a run that is not closed is in the queue, or a goroutine is adding it, handing it out, requeuing it
or about to close it (and is not one that may still panic and vanish), or a watchdog waits for its runner:
the entry it waits on belongs to the run and has not been signalled, so that the timer will requeue it. -/
theorem C67_not_forgotten {m : Int} {evs : List Event} {s : State} (h : Reach m evs s)
    (hup : s.crashed = false) {r : Nat} {run : Run} (hrun : s.runs[r]? = some run)
    (hopen : run.closed = false) :
    r ∈ s.queue ∨ (∃ x ∈ s.threads, x.carries r = true) ∨
      ∃ i f, (.watchConnect i ∈ s.threads ∨ .watchReady i ∈ s.threads) ∧ s.inflights[i]? = some f ∧
        f.run = r ∧ f.ready = false :=
  h.cared hup r (List.getElem?_eq_some_iff.mp hrun).1 (by simp [State.isClosed, hrun, hopen])

/-- What is done about run `r`: it is taken from the queue, its watchdog times out, or a goroutine that
carries it does its next operation. -/
def Moves (s : State) (r : Nat) : Act → Event → Prop
  | .take _, e => e = .taken r
  | .fail _, e => ∃ a, e = .timedOut r a
  | .step t, _ => ∃ x, s.threads[t]? = some x ∧ x.carries r = true
  | _, _ => False

/-- C67, progress: while the grader is up, something can always be done about a run that is not closed,
without any further upload or submission. -/
theorem C67_can_move {m : Int} {evs : List Event} {s : State} (h : Reach m evs s)
    (hup : s.crashed = false) {r : Nat} {run : Run} (hrun : s.runs[r]? = some run)
    (hopen : run.closed = false) : ∃ act s' e, step m s act = some (s', e) ∧ Moves s r act e := by
  rcases C67_not_forgotten h hup hrun hopen with h1 | ⟨x, hx, hxr⟩ | ⟨i, f, h1, h2, h3, h4⟩
  · obtain ⟨k, hk, hkr⟩ := List.getElem_of_mem h1
    have : s.queue[k]? = some r := by rw [List.getElem?_eq_getElem hk, hkr]
    exact ⟨.take k, _, _, by simp [step, hup, this]; rfl, rfl⟩
  · obtain ⟨t, ht, rfl⟩ := List.getElem_of_mem hx
    have ht' := List.getElem?_eq_getElem ht
    generalize hy : s.threads[t] = y at ht' hxr
    have key : ∃ p, step m s (.step t) = some p := by
      cases y <;> simp [Thread.carries] at hxr
      case adding q => exact ⟨_, by simp [step, hup, ht']; rfl⟩
      case getting q =>
        subst hxr
        cases hru : run.running <;> exact ⟨_, by simp [step, hup, ht', hrun, hru]; rfl⟩
      case registering q => subst hxr; exact ⟨_, by simp [step, hup, ht', hrun]; rfl⟩
      case requeue w q l pc =>
        have : q = r := by cases w <;> cases pc <;> simp_all
        subst this
        exact ⟨_, by simp [step, hup, ht', hrun]; rfl⟩
      case close w q pc =>
        have : q = r := by cases pc <;> simp_all
        subst this
        exact ⟨_, by simp [step, hup, ht', hrun]; rfl⟩
    obtain ⟨p, hp⟩ := key
    exact ⟨.step t, p.1, p.2, hp, _, ht', hxr⟩
  · rcases h1 with h1 | h1 <;> obtain ⟨t, ht, hti⟩ := List.getElem_of_mem h1
    · have ht' : s.threads[t]? = some (.watchConnect i) := by rw [List.getElem?_eq_getElem ht, hti]
      exact ⟨.fail t, _, _, by simp [step, hup, ht', h2]; exact ⟨rfl, rfl⟩, f.attempt, by simp [h3]⟩
    · have ht' : s.threads[t]? = some (.watchReady i) := by rw [List.getElem?_eq_getElem ht, hti]
      exact ⟨.fail t, _, _, by simp [step, hup, ht', h2]; exact ⟨rfl, rfl⟩, f.attempt, by simp [h3]⟩

/-- A racing execution: the upload handler fails and requeues the run while the watchdog of the same attempt
fires; the handler is past `Remove`, so the watchdog finds no monitor and requeues the run as well. The
grader is up and the run is open. -/
example : ∃ evs s, Reach 3 evs s ∧ s.crashed = false ∧ (s.runs[0]?).map (·.closed) = some false ∧
    s.queue = [0, 0] ∧ .failed 0 1 ∈ evs ∧ .timedOut 0 1 ∈ evs := by
  obtain ⟨p, hp⟩ : ∃ p, exec 3 (handOut ++ [.upload 1, .fail 2, .retry 3] ++ List.replicate 10 (.step 3) ++
    List.replicate 8 (.step 2)) = some p := ⟨_, rfl⟩
  exact ⟨p.1, p.2, reach_of_exec hp, by cases hp; decide, by cases hp; decide, by cases hp; decide,
    by cases hp; decide, by cases hp; decide⟩

end Quark.Lifecycle
