import Verif.Lifecycle.Forgotten

/-!
# C172: without races every submitted run comes to an end

A goroutine's operation on a run, its being taken from the queue and the end of a wait for its runner all
use up a budget that depends only on `MaxGradeRetries`; while the budget is not used up something can be
done. So a scheduler, runners and timers that do not neglect the run for ever bring it to its end.
-/

namespace Quark.Lifecycle

/-- Something is done about run `r`: a runner takes it from the queue, its watchdog times out or the upload
of its results ends, or a goroutine that holds it (adding, handing out, requeuing, closing it) does its
next operation. -/
def Works (s : State) (r : Nat) (act : Act) (e : Event) : Prop :=
  e = .taken r ∨ (∃ a, e = .timedOut r a ∨ e = .uploaded r a ∨ e = .failed r a ∨ e = .judgeError r a) ∨
    ∃ t x, (act = .step t ∨ act = .fail t) ∧ s.threads[t]? = some x ∧ x.on r = true

/-- The run is over: closed, not queued, and no goroutine holds it. -/
def Over (s : State) (r : Nat) : Prop :=
  (∃ run, s.runs[r]? = some run ∧ run.closed = true) ∧ r ∉ s.queue ∧ ∀ x ∈ s.threads, x.on r = false

/-! ## The budget -/

def Rq.left (tries : Int) : Rq → Nat
  | .check => 17
  | .callRemove => 16
  | .remove _ => 15
  | .readTries => 14
  | .writeTries _ => 13
  | .test => if tries ≤ 0 then 12 else 26
  | .setLast => 25
  | .newId => 24
  | .setId _ => 23
  | .enqueue => 22

def Cl.left : Cl → Nat
  | .swap => 11
  | .check => 10
  | .getPost => 9
  | .callRemove => 8
  | .remove _ => 7
  | .release _ => 6
  | .persist _ => 5
  | .signal _ => 4
  | .post _ => 3
  | .event => 2

/-- How many operations are left in this attempt. -/
def Thread.left (tries : Int) : Thread → Nat
  | .adding _ => 22
  | .getting _ => 20
  | .registering _ => 19
  | .requeue _ _ _ pc => pc.left tries
  | .close _ _ pc => pc.left
  | _ => 0

/-- How much is left of the budget of run `r`. -/
inductive Rank (s : State) (r : Nat) : Nat → Prop
  | held {x run} : x ∈ s.threads → x.on r = true → s.runs[r]? = some run →
      Rank s r (14 * run.tries.toNat + x.left run.tries)
  | queued {run} : r ∈ s.queue → s.runs[r]? = some run → Rank s r (14 * run.tries.toNat + 21)
  | idle {run} : r ∉ s.queue → (∀ x ∈ s.threads, x.on r = false) → s.runs[r]? = some run →
      Rank s r (if run.closed then 0 else 14 * run.tries.toNat + 18)

theorem Rank.unique {m : Int} {evs : List Event} {s : State} {r n k : Nat} (h : Tidy m evs s)
    (h1 : Rank s r n) (h2 : Rank s r k) : n = k := by
  have hocc := h.occ r
  have hq : ∀ {x}, x ∈ s.threads → x.on r = true → r ∈ s.queue → False := by
    intro x hx hxr hq
    have h3 : 0 < s.threads.countP (Thread.on r) := List.countP_pos_iff.mpr ⟨x, hx, hxr⟩
    have h4 := List.count_pos_iff.mpr hq
    omega
  cases h1 with
  | held a1 a2 a3 =>
    cases h2 with
    | held b1 b2 b3 =>
      rw [a3] at b3; cases b3
      rename_i x run y
      by_cases hxy : x = y
      · rw [hxy]
      · have := two_le_countP a1 b1 hxy a2 b2
        omega
    | queued b1 b2 => exact (hq a1 a2 b1).elim
    | idle b1 b2 b3 => rw [b2 _ a1] at a2; cases a2
  | queued a1 a2 =>
    cases h2 with
    | held b1 b2 b3 => exact (hq b1 b2 a1).elim
    | queued b1 b2 => rw [a2] at b2; cases b2; rfl
    | idle b1 b2 b3 => exact absurd a1 b1
  | idle a1 a2 a3 =>
    cases h2 with
    | held b1 b2 b3 => rw [a2 _ b1] at b2; cases b2
    | queued b1 b2 => exact absurd b1 a1
    | idle b1 b2 b3 => rw [a3] at b3; cases b3; rfl

theorem Rank.exists {s : State} {r : Nat} {run : Run} (h : s.runs[r]? = some run) : ∃ n, Rank s r n := by
  by_cases h1 : r ∈ s.queue
  · exact ⟨_, .queued h1 h⟩
  · by_cases h2 : ∃ x ∈ s.threads, x.on r = true
    · obtain ⟨x, hx, hxr⟩ := h2
      exact ⟨_, .held hx hxr h⟩
    · refine ⟨_, .idle h1 (fun x hx => ?_) h⟩
      by_contra hc
      exact h2 ⟨x, hx, by simpa using hc⟩

theorem Rank.run {s : State} {r n : Nat} (h : Rank s r n) : ∃ run, s.runs[r]? = some run := by
  cases h <;> exact ⟨_, ‹_›⟩

/-- Nothing about run `r` has changed, and nothing was done about it. -/
structure Alike (s s' : State) (r : Nat) (e : Event) : Prop where
  at_ : ∀ (t : Nat) (x : Thread), x.on r = true → s.threads[t]? = some x → s'.threads[t]? = some x
  from_ : ∀ x ∈ s'.threads, x.on r = true → x ∈ s.threads
  queue : r ∈ s'.queue ↔ r ∈ s.queue
  runs : (s'.runs[r]?).map (fun x => (x.tries, x.closed)) = (s.runs[r]?).map (fun x => (x.tries, x.closed))
  event : e ≠ .taken r ∧ ∀ a, e ≠ .timedOut r a ∧ e ≠ .uploaded r a ∧ e ≠ .failed r a ∧ e ≠ .judgeError r a

theorem Alike.rank {s s' : State} {r n : Nat} {e : Event} (h : Alike s s' r e) (hr : Rank s r n) :
    Rank s' r n := by
  have key : ∀ run, s.runs[r]? = some run → ∃ run', s'.runs[r]? = some run' ∧ run'.tries = run.tries ∧
      run'.closed = run.closed := by
    intro run hrun
    have := h.runs
    rw [hrun] at this
    obtain ⟨run', h1, h2⟩ := Option.map_eq_some_iff.mp this
    simp only [Prod.mk.injEq] at h2
    exact ⟨run', h1, h2.1, h2.2⟩
  cases hr with
  | held a1 a2 a3 =>
    obtain ⟨run', h1, h2, h3⟩ := key _ a3
    obtain ⟨t, ht⟩ := List.mem_iff_getElem?.mp a1
    rw [← h2]
    exact .held (List.mem_of_getElem? (h.at_ t _ a2 ht)) a2 h1
  | queued a1 a2 =>
    obtain ⟨run', h1, h2, h3⟩ := key _ a2
    rw [← h2]
    exact .queued (h.queue.mpr a1) h1
  | idle a1 a2 a3 =>
    obtain ⟨run', h1, h2, h3⟩ := key _ a3
    rw [← h2, ← h3]
    refine .idle (fun hc => a1 (h.queue.mp hc)) (fun x hx => ?_) h1
    by_contra hc
    simp only [Bool.not_eq_false] at hc
    rw [a2 x (h.from_ x hx hc)] at hc
    cases hc

/-- A step of a goroutine that does not hold run `r`, before or after. -/
theorem Alike.goto {s s' : State} {r t : Nat} {y x : Thread} {e : Event} {extra : List Thread}
    (ht : s.threads[t]? = some y)
    (hy : y.on r = false) (hx : x.on r = false) (hthr : s'.threads = s.threads.set t x ++ extra)
    (hext : ∀ z ∈ extra, z.on r = false)
    (hq : r ∈ s'.queue ↔ r ∈ s.queue)
    (hr : (s'.runs[r]?).map (fun x => (x.tries, x.closed)) = (s.runs[r]?).map (fun x => (x.tries, x.closed)))
    (he : e ≠ .taken r ∧ ∀ a, e ≠ .timedOut r a ∧ e ≠ .uploaded r a ∧ e ≠ .failed r a ∧ e ≠ .judgeError r a) :
    Alike s s' r e := by
  refine ⟨fun u z hz hu => ?_, fun z hz hzr => ?_, hq, hr, he⟩
  · have hut : t ≠ u := by
      rintro rfl
      rw [ht] at hu
      cases hu
      rw [hy] at hz
      cases hz
    have hlt : u < (s.threads.set t x).length := by
      simpa using (List.getElem?_eq_some_iff.mp hu).1
    rw [hthr, List.getElem?_append_left hlt, List.getElem?_set_ne hut]
    exact hu
  · rw [hthr] at hz
    rcases List.mem_append.mp hz with hz | hz
    · rcases List.mem_or_eq_of_mem_set hz with hz | hz
      · exact hz
      · rw [hz, hx] at hzr; cases hzr
    · rw [hext z hz] at hzr; cases hzr

theorem Alike.more {s s' : State} {r : Nat} {e : Event} {extra : List Thread}
    (hthr : s'.threads = s.threads ++ extra)
    (hext : ∀ z ∈ extra, z.on r = false)
    (hq : r ∈ s'.queue ↔ r ∈ s.queue)
    (hr : (s'.runs[r]?).map (fun x => (x.tries, x.closed)) = (s.runs[r]?).map (fun x => (x.tries, x.closed)))
    (he : e ≠ .taken r ∧ ∀ a, e ≠ .timedOut r a ∧ e ≠ .uploaded r a ∧ e ≠ .failed r a ∧ e ≠ .judgeError r a) :
    Alike s s' r e := by
  refine ⟨fun u z hz hu => ?_, fun z hz hzr => ?_, hq, hr, he⟩
  · rw [hthr, List.getElem?_append_left (List.getElem?_eq_some_iff.mp hu).1]
    exact hu
  · rw [hthr] at hz
    rcases List.mem_append.mp hz with hz | hz
    · exact hz
    · rw [hext z hz] at hzr; cases hzr

/-- The rank after a goroutine on `r` moved from `y` to `x`. -/
theorem rank_down {m : Int} {evs evs' : List Event} {s s' : State} {r t n k : Nat} {y x : Thread}
    {run run' : Run} (htd : Tidy m evs s) (htd' : Tidy m evs' s') (h1 : Rank s r n) (h2 : Rank s' r k)
    (ht : s.threads[t]? = some y) (hy : y.on r = true) (hrun : s.runs[r]? = some run)
    (hrun' : s'.runs[r]? = some run') (hthr : ∃ extra, s'.threads = s.threads.set t x ++ extra)
    (hx : x.on r = true)
    (hlt : 14 * run'.tries.toNat + x.left run'.tries < 14 * run.tries.toNat + y.left run.tries) : k < n := by
  have e1 := h1.unique htd (.held (List.mem_of_getElem? ht) hy hrun)
  obtain ⟨extra, hthr⟩ := hthr
  have hmem : x ∈ s'.threads := by rw [hthr]; exact List.mem_append_left _ (mem_set_new ht)
  have e2 := h2.unique htd' (.held hmem hx hrun')
  omega

theorem starts_alike {r q : Nat} {e : Event} (hqr : q ≠ r)
    (he : ∃ a, e = .timedOut q a ∨ e = .uploaded q a ∨ e = .failed q a ∨ e = .judgeError q a) :
    e ≠ .taken r ∧ ∀ a, e ≠ .timedOut r a ∧ e ≠ .uploaded r a ∧ e ≠ .failed r a ∧ e ≠ .judgeError r a := by
  obtain ⟨a, rfl | rfl | rfl | rfl⟩ := he <;> simp [hqr]

/-- Events that are not the end of a wait or the taking of a run. -/
def Event.dull : Event → Bool
  | .taken _ | .timedOut .. | .uploaded .. | .failed .. | .judgeError .. => false
  | _ => true

theorem dull_alike {e : Event} {r : Nat} (h : e.dull = true) :
    e ≠ .taken r ∧ ∀ a, e ≠ .timedOut r a ∧ e ≠ .uploaded r a ∧ e ≠ .failed r a ∧ e ≠ .judgeError r a := by
  cases e <;> simp [Event.dull] at h <;> simp

/-- The start of `Requeue` or `Close` for a run in flight uses up some of the budget. -/
theorem rank_start {m : Int} {own : Nat → Nat} {evs evs' : List Event} {s : State} {t q r n k a : Nat}
    {y x : Thread} {e : Event} (hid : Ids own evs s) (htd : Tidy m evs s) (htd' : Tidy m evs' (s.goto t x))
    (h1 : Rank s r n) (h2 : Rank (s.goto t x) r k)
    (ht : s.threads[t]? = some y) (hy : ∀ q, y.on q = false) (hx : ∀ r, x.on r = (q == r))
    (hown : own a = q) (ho : (s.mapping a).isSome = true ∧ ∀ x ∈ s.threads, x.finishing q = false)
    (he : ∃ a, e = .timedOut q a ∨ e = .uploaded q a ∨ e = .failed q a ∨ e = .judgeError q a)
    (hl : ∀ i, x.left i ≤ 17) : k < n ∨ Alike s (s.goto t x) r e := by
  by_cases hqr : q = r
  · subst hqr
    left
    obtain ⟨run, hrun, hz, hf⟩ := htd.inFlight hid hown ho.1 ho.2
    have hno : ∀ z ∈ s.threads, z.on q = false := by
      intro z hz'
      by_contra hc
      have : 0 < s.threads.countP (Thread.on q) := List.countP_pos_iff.mpr ⟨z, hz', by simpa using hc⟩
      omega
    have hnq : q ∉ s.queue := fun hc => by
      have := List.count_pos_iff.mpr hc
      omega
    have e1 := h1.unique htd (.idle hnq hno hrun)
    have e2 := h2.unique htd' (.held (x := x) (run := run) (mem_set_new ht) (by simp [hx]) hrun)
    have hop : run.closed = false := hf.2.1
    rw [hop] at e1
    have := hl run.tries
    simp at e1
    omega
  · right
    exact .goto (x := x) (extra := []) ht (hy r) (by simp [hx, hqr]) (by simp [State.goto]) (by simp) (Iff.rfl) rfl
      (starts_alike hqr he)

/-- A goroutine holding run `q` does something and goes on holding it. -/
theorem rank_hold {m : Int} {evs evs' : List Event} {s s' : State} {r q t n k : Nat} {y x : Thread}
    {run run' : Run} {e : Event} (htd : Tidy m evs s) (htd' : Tidy m evs' s') (h1 : Rank s r n)
    (h2 : Rank s' r k) (ht : s.threads[t]? = some y) (hy : ∀ r, y.on r = (q == r))
    (hx : ∀ r, x.on r = (q == r)) (he : e.dull = true)
    (hthr : s'.threads = s.threads.set t x) (hq : s'.queue = s.queue)
    (hrun : s.runs[q]? = some run) (hrun' : s'.runs[q]? = some run')
    (hother : ∀ p, p ≠ q → (s'.runs[p]?).map (fun x => (x.tries, x.closed)) =
      (s.runs[p]?).map (fun x => (x.tries, x.closed)))
    (hlt : 14 * run'.tries.toNat + x.left run'.tries < 14 * run.tries.toNat + y.left run.tries) :
    k < n ∨ Alike s s' r e := by
  by_cases hqr : q = r
  · subst hqr
    exact .inl (rank_down htd htd' h1 h2 ht (by simp [hy]) hrun hrun' ⟨[], by simp [hthr]⟩ (by simp [hx]) hlt)
  · exact .inr (.goto (x := x) (extra := []) ht (by simp [hy, hqr]) (by simp [hx, hqr]) (by simp [hthr]) (by simp)
      (by rw [hq]) (hother r (Ne.symm hqr)) (dull_alike he))

/-- A goroutine that holds no run does something that concerns none. -/
theorem rank_off {s s' : State} {r t : Nat} {y x : Thread} {e : Event}
    (ht : s.threads[t]? = some y) (hy : ∀ r, y.on r = false)
    (hx : ∀ r, x.on r = false) (he : e.dull = true)
    (hthr : s'.threads = s.threads.set t x) (hq : s'.queue = s.queue)
    (hruns : s'.runs = s.runs) : Alike s s' r e :=
  .goto (extra := []) ht (hy r) (hx r) (by simp [hthr]) (by simp) (by rw [hq]) (by rw [hruns]) (dull_alike he)

theorem modRun_at {s : State} {q : Nat} {run : Run} {f : Run → Run} (h : s.runs[q]? = some run) :
    (s.modRun q f).runs[q]? = some (f run) := by
  simp [State.modRun, h]

theorem modRun_other {s : State} {q p : Nat} {f : Run → Run} (h : p ≠ q) :
    (s.modRun q f).runs[p]? = s.runs[p]? := by
  simp [State.modRun, Ne.symm h]

theorem rank_step {m : Int} {own : Nat → Nat} {evs : List Event} {s s' : State} {e : Event} {r n k : Nat}
    (hid : Ids own evs s) (htd : Tidy m evs s) (htd' : Tidy m (evs ++ [e]) s') (hs : Step m s s' e)
    (ho : Orderly s e) (h1 : Rank s r n) (h2 : Rank s' r k) : k < n ∨ Alike s s' r e := by
  cases hs with
  | submit =>
    right
    obtain ⟨run, hrun⟩ := h1.run
    obtain ⟨hlt, -⟩ := List.getElem?_eq_some_iff.mp hrun
    refine .more (extra := [.adding s.runs.length]) rfl ?_ Iff.rfl ?_ (dull_alike rfl)
    · simp [Thread.on]; omega
    · simp only [List.getElem?_append_left hlt]
  | take q p hq =>
    by_cases hpr : p = r
    · subst hpr
      left
      obtain ⟨run, hrun⟩ := h1.run
      have e1 := h1.unique htd (.queued (List.mem_of_getElem? hq) hrun)
      have e2 := h2.unique htd' (.held (x := .getting p) (run := run) (by simp) (by simp [Thread.on]) hrun)
      simp only [Thread.left] at e2
      omega
    · right
      refine .more (extra := [.getting p]) rfl (by simp [Thread.on, hpr]) ?_ rfl ?_
      · simp only
        obtain ⟨hlt, hget⟩ := List.getElem?_eq_some_iff.mp hq
        have hperm : (p :: s.queue.eraseIdx q).Perm s.queue := hget ▸ List.getElem_cons_eraseIdx_perm hlt
        rw [← hperm.mem_iff]
        simp [Ne.symm hpr]
      · simp [hpr]
  | rejected a ha => exact .inr (.more (extra := []) (by simp) (by simp) Iff.rfl rfl (dull_alike rfl))
  | resolved a i f ha hf =>
    exact .inr (.more (extra := [.handling f.run a]) rfl (by simp [Thread.on]) Iff.rfl rfl (dull_alike rfl))
  | quiet t y x e ht hq =>
    have hold : ∀ {q run}, s.runs[q]? = some run → (∀ r, y.on r = (q == r)) → (∀ r, x.on r = (q == r)) →
        e.dull = true → x.left run.tries < y.left run.tries → k < n ∨ Alike s (s.goto t x) r e :=
      fun hrun hy hx he hlt => rank_hold htd htd' h1 h2 ht hy hx he rfl rfl hrun hrun (fun _ _ => rfl)
        (by omega)
    have some_run : ∀ {q}, y.on q = true → ∃ run, s.runs[q]? = some run ∧ Fine m q run evs (.thread y) :=
      fun hy => htd.run_of ht hy
    cases hq with
    | gettingAgain q run hrun hr => exact hold hrun (fun _ => rfl) (fun _ => rfl) rfl (by simp [Thread.left])
    | watchDone i f hf hr => exact .inr (rank_off ht (fun _ => rfl) (fun _ => rfl) rfl rfl rfl rfl)
    | aborted q a => exact .inr (rank_off ht (fun _ => rfl) (fun _ => rfl) rfl rfl rfl rfl)
    | uploaded q a =>
      have hown := (hid.uses _ (List.mem_of_getElem? ht) q a (.handling q a)).1
      exact rank_start hid htd htd' h1 h2 ht (fun _ => rfl) (fun _ => rfl) hown ho ⟨a, by simp⟩
        (by simp [Thread.left, Cl.left])
    | failed q a =>
      have hown := (hid.uses _ (List.mem_of_getElem? ht) q a (.handling q a)).1
      exact rank_start hid htd htd' h1 h2 ht (fun _ => rfl) (fun _ => rfl) hown ho ⟨a, by simp⟩
        (by simp [Thread.left, Rq.left])
    | judgeError q a =>
      have hown := (hid.uses _ (List.mem_of_getElem? ht) q a (.handling q a)).1
      exact rank_start hid htd htd' h1 h2 ht (fun _ => rfl) (fun _ => rfl) hown ho ⟨a, by simp⟩
        (by simp [Thread.left, Rq.left])
    | fireConnect i f hf =>
      have hown := (hid.inflights _ (List.mem_of_getElem? hf)).1
      exact rank_start hid htd htd' h1 h2 ht (fun _ => rfl) (fun _ => rfl) hown ho ⟨f.attempt, by simp⟩
        (by simp [Thread.left, Rq.left])
    | fireReady i f hf =>
      have hown := (hid.inflights _ (List.mem_of_getElem? hf)).1
      exact rank_start hid htd htd' h1 h2 ht (fun _ => rfl) (fun _ => rfl) hown ho ⟨f.attempt, by simp⟩
        (by simp [Thread.left, Rq.left])
    | full w q l =>
      obtain ⟨run, hrun, -⟩ := some_run (q := q) (by simp [Thread.on])
      exact hold hrun (fun _ => rfl) (fun _ => rfl) rfl (by simp [Thread.left, Rq.left, Cl.left])
    | notPersisted w q p =>
      obtain ⟨run, hrun, -⟩ := some_run (q := q) (by simp [Thread.on])
      exact hold hrun (fun _ => rfl) (fun _ => rfl) rfl (by simp [Thread.left, Cl.left])
    | rqCheck w q l run hrun =>
      exact hold hrun (fun _ => rfl) (fun _ => rfl) rfl (by split_ifs <;> simp [Thread.left, Rq.left])
    | rqCall w q l run hrun hm =>
      exact hold hrun (fun _ => rfl) (fun _ => rfl) rfl (by simp [Thread.left, Rq.left])
    | rqPanic q l run hrun hm =>
      obtain ⟨run', hrun', hf⟩ := some_run (q := q) (by simp [Thread.on])
      rw [hrun] at hrun'; cases hrun'
      simp [Fine, Good, hm] at hf
    | rqRead w q l run hrun =>
      exact hold hrun (fun _ => rfl) (fun _ => rfl) rfl (by simp [Thread.left, Rq.left])
    | rqTest w q l run hrun =>
      refine hold hrun (fun _ => rfl) (fun _ => by split_ifs <;> rfl) rfl ?_
      by_cases htr : run.tries ≤ 0 <;> simp [Thread.left, Rq.left, Cl.left, htr]
    | rqNotLast w q =>
      obtain ⟨run, hrun, -⟩ := some_run (q := q) (by simp [Thread.on])
      exact hold hrun (fun _ => rfl) (fun _ => rfl) rfl (by simp [Thread.left, Rq.left])
    | clAgain w q run hrun hc =>
      obtain ⟨run', hrun', hf⟩ := some_run (q := q) (by simp [Thread.on])
      rw [hrun] at hrun'; cases hrun'
      simp [Fine, Good, hc] at hf
    | clCheck w q run hrun =>
      exact hold hrun (fun _ => rfl) (fun _ => rfl) rfl (by split_ifs <;> simp [Thread.left, Cl.left])
    | clGetPost w q run hrun hm =>
      exact hold hrun (fun _ => rfl) (fun _ => rfl) rfl (by simp [Thread.left, Cl.left])
    | clCall w q run hrun hm =>
      exact hold hrun (fun _ => rfl) (fun _ => rfl) rfl (by simp [Thread.left, Cl.left])
    | clNoInput w q p run hrun hm =>
      exact hold hrun (fun _ => rfl) (fun _ => rfl) rfl (by simp [Thread.left, Cl.left])
    | clPersist w q p =>
      obtain ⟨run, hrun, -⟩ := some_run (q := q) (by simp [Thread.on])
      exact hold hrun (fun _ => rfl) (fun _ => rfl) rfl (by simp [Thread.left, Cl.left])
    | clSignal w q p =>
      obtain ⟨run, hrun, -⟩ := some_run (q := q) (by simp [Thread.on])
      exact hold hrun (fun _ => rfl) (fun _ => rfl) rfl (by simp [Thread.left, Cl.left])
    | clPost w q =>
      obtain ⟨run, hrun, -⟩ := some_run (q := q) (by simp [Thread.on])
      exact hold hrun (fun _ => rfl) (fun _ => rfl) rfl (by simp [Thread.left, Cl.left])
    | clNoPost w q =>
      obtain ⟨run, hrun, -⟩ := some_run (q := q) (by simp [Thread.on])
      exact hold hrun (fun _ => rfl) (fun _ => rfl) rfl (by simp [Thread.left, Cl.left])
    | clEvent w q =>
      obtain ⟨run, hrun, hf⟩ := some_run (q := q) (by simp [Thread.on])
      by_cases hqr : q = r
      · subst hqr
        left
        have e1 := h1.unique htd (.held (List.mem_of_getElem? ht) (by simp [Thread.on]) hrun)
        have hcl : run.closed = true := hf.2.2.1
        have hocc := htd.occ q
        have hpos : 0 < s.threads.countP (Thread.on q) :=
          List.countP_pos_iff.mpr ⟨_, List.mem_of_getElem? ht, by simp [Thread.on]⟩
        have hnq : q ∉ s.queue := fun hc => by
          have := List.count_pos_iff.mpr hc
          omega
        have hcnt := countP_goto (f := Thread.on q) (x := .done) ht
        have hz : (s.threads.set t .done).countP (Thread.on q) = 0 := by
          simp [Thread.on] at hcnt
          omega
        have e2 := h2.unique htd' (.idle (run := run) hnq (fun x hx => by
          by_contra hc
          exact List.countP_eq_zero.mp hz x hx (by simpa using hc)) hrun)
        rw [hcl] at e2
        simp [Thread.left, Cl.left] at e1 e2
        omega
      · exact .inr (.goto (x := .done) (extra := []) ht (by simp [Thread.on, hqr]) rfl (by simp [State.goto])
          (by simp) Iff.rfl rfl (dull_alike rfl))
  | write t y q f x e ht hw =>
    have hold : ∀ {run}, s.runs[q]? = some run → (∀ r, y.on r = (q == r)) → (∀ r, x.on r = (q == r)) →
        e.dull = true →
        14 * (f run).tries.toNat + x.left (f run).tries < 14 * run.tries.toNat + y.left run.tries →
        k < n ∨ Alike s ((s.modRun q f).goto t x) r e :=
      fun hrun hy hx he hlt => rank_hold htd htd' h1 h2 ht hy hx he rfl rfl hrun (modRun_at hrun)
        (fun p hp => by rw [show ((s.modRun q f).goto t x).runs = (s.modRun q f).runs from rfl, modRun_other hp])
        hlt
    have some_run : ∀ {q}, y.on q = true → ∃ run, s.runs[q]? = some run ∧ Fine m q run evs (.thread y) :=
      fun hy => htd.run_of ht hy
    cases hw with
    | running _ run hrun hr => exact hold hrun (fun _ => rfl) (fun _ => rfl) rfl (by simp [Thread.left])
    | tries w _ l i =>
      obtain ⟨run, hrun, hf⟩ := some_run (q := q) (by simp [Thread.on])
      have hi : i = run.tries := hf.2.2.2.2
      subst hi
      refine hold hrun (fun _ => rfl) (fun _ => rfl) rfl ?_
      simp only [Thread.left, Rq.left]
      split_ifs <;> omega
    | last w _ =>
      obtain ⟨run, hrun, hf⟩ := some_run (q := q) (by simp [Thread.on])
      have hi : 1 ≤ run.tries := hf.2.2.2.2.1
      refine hold hrun (fun _ => rfl) (fun _ => rfl) rfl ?_
      simp only [Thread.left, Rq.left]
      omega
    | setId w _ l a =>
      obtain ⟨run, hrun, hf⟩ := some_run (q := q) (by simp [Thread.on])
      exact hold hrun (fun _ => rfl) (fun _ => rfl) rfl (by simp [Thread.left, Rq.left])
    | closed w _ run hrun hc =>
      exact hold hrun (fun _ => rfl) (fun _ => rfl) rfl (by simp [Thread.left, Cl.left])
    | released w _ p run hrun hi =>
      exact hold hrun (fun _ => rfl) (fun _ => rfl) rfl (by simp [Thread.left, Cl.left])
  | crash t y q e run ht hrun hmon hc =>
    have := htd'.calm
    simp [State.goto] at this
  | clPanic t y q run ht hrun hmon hc =>
    have hy : y.on q = true := by
      rcases hc with rfl | rfl <;> simp [Thread.on]
    obtain ⟨run', hrun', hf⟩ := htd.run_of ht hy
    rw [hrun] at hrun'; cases hrun'
    rcases hc with rfl | rfl <;> simp [Fine, Good, hmon] at hf
  | rqRemove t w q l a ht =>
    obtain ⟨run, hrun, -⟩ := htd.run_of ht (r := q) (by simp [Thread.on])
    have hmap : (s.removeAttempt a).runs.map (fun x => (x.tries, x.closed)) =
        s.runs.map (fun x => (x.tries, x.closed)) := map_removeAttempt s a (fun _ => rfl)
    have hall : ∀ p : Nat, ((s.removeAttempt a).runs[p]?).map (fun x => (x.tries, x.closed)) =
        (s.runs[p]?).map (fun x => (x.tries, x.closed)) := fun p => by
      rw [← List.getElem?_map, ← List.getElem?_map, hmap]
    have hq := hall q
    rw [hrun] at hq
    obtain ⟨run', hrun', hrr⟩ := Option.map_eq_some_iff.mp hq
    simp only [Prod.mk.injEq] at hrr
    refine rank_hold (y := .requeue w q l (.remove a)) (x := .requeue w q l .readTries)
      htd htd' h1 h2 ht (fun _ => rfl) (fun _ => rfl) rfl (by simp [State.goto, threads_removeAttempt])
      (by simp [State.goto, queue_removeAttempt]) hrun hrun' (fun p _ => hall p) ?_
    rw [hrr.1]
    simp [Thread.left, Rq.left]
  | clRemove t w q a ht =>
    obtain ⟨run, hrun, -⟩ := htd.run_of ht (r := q) (by simp [Thread.on])
    have hmap : (s.removeAttempt a).runs.map (fun x => (x.tries, x.closed)) =
        s.runs.map (fun x => (x.tries, x.closed)) := map_removeAttempt s a (fun _ => rfl)
    have hall : ∀ p : Nat, ((s.removeAttempt a).runs[p]?).map (fun x => (x.tries, x.closed)) =
        (s.runs[p]?).map (fun x => (x.tries, x.closed)) := fun p => by
      rw [← List.getElem?_map, ← List.getElem?_map, hmap]
    have hq := hall q
    rw [hrun] at hq
    obtain ⟨run', hrun', hrr⟩ := Option.map_eq_some_iff.mp hq
    simp only [Prod.mk.injEq] at hrr
    refine rank_hold (y := .close w q (.remove a)) (x := .close w q (.release true))
      htd htd' h1 h2 ht (fun _ => rfl) (fun _ => rfl) rfl (by simp [State.goto, threads_removeAttempt])
      (by simp [State.goto, queue_removeAttempt]) hrun hrun' (fun p _ => hall p) ?_
    rw [hrr.1]
    simp [Thread.left, Cl.left]
  | newId t w q l ht =>
    obtain ⟨run, hrun, -⟩ := htd.run_of ht (r := q) (by simp [Thread.on])
    exact rank_hold (y := .requeue w q l .newId) (x := .requeue w q l (.setId (s.lastId + 1)))
      htd htd' h1 h2 ht (fun _ => rfl) (fun _ => rfl) rfl rfl rfl hrun hrun (fun _ _ => rfl)
      (by simp [Thread.left, Rq.left])
  | add t q ht =>
    by_cases hqr : q = r
    · subst hqr
      left
      obtain ⟨run, hrun⟩ := h1.run
      have e1 := h1.unique htd (.held (List.mem_of_getElem? ht) (by simp [Thread.on]) hrun)
      have e2 := h2.unique htd' (.queued (run := run) (by simp [State.goto]) hrun)
      simp only [Thread.left] at e1
      omega
    · exact .inr (.goto (extra := []) (x := .done) ht (by simp [Thread.on, hqr]) rfl (by simp [State.goto])
        (by simp) (by simp [State.goto, Ne.symm hqr]) rfl (dull_alike rfl))
  | enqueue t w q l ht =>
    by_cases hqr : q = r
    · subst hqr
      left
      obtain ⟨run, hrun⟩ := h1.run
      have e1 := h1.unique htd (.held (List.mem_of_getElem? ht) (by simp [Thread.on]) hrun)
      have e2 := h2.unique htd' (.queued (run := run) (by simp [State.goto]) hrun)
      simp only [Thread.left, Rq.left] at e1
      omega
    · exact .inr (.goto (extra := []) (x := .done) ht (by simp [Thread.on, hqr]) rfl (by simp [State.goto])
        (by simp) (by simp [State.goto, Ne.symm hqr]) rfl (dull_alike rfl))
  | register t q run ht hrun =>
    have hmap : (s.runs.modify q fun x => { x with monitor := true }).map (fun x => (x.tries, x.closed)) =
        s.runs.map (fun x => (x.tries, x.closed)) := map_modify (fun _ => rfl)
    have hall : ∀ p : Nat, ((s.runs.modify q fun x => { x with monitor := true })[p]?).map
        (fun x => (x.tries, x.closed)) = (s.runs[p]?).map (fun x => (x.tries, x.closed)) := fun p => by
      rw [← List.getElem?_map, ← List.getElem?_map, hmap]
    by_cases hqr : q = r
    · subst hqr
      left
      obtain ⟨run0, hrun0, hf⟩ := htd.run_of ht (r := q) (by simp [Thread.on])
      rw [hrun] at hrun0; cases hrun0
      have hop : run.closed = false := hf.2.1
      have e1 := h1.unique htd (.held (List.mem_of_getElem? ht) (by simp [Thread.on]) hrun)
      have hocc := htd.occ q
      have hpos : 0 < s.threads.countP (Thread.on q) :=
        List.countP_pos_iff.mpr ⟨_, List.mem_of_getElem? ht, by simp [Thread.on]⟩
      have hnq : q ∉ s.queue := fun hc => by
        have := List.count_pos_iff.mpr hc
        omega
      have hcnt := countP_goto (f := Thread.on q) (x := .done) ht
      have hz : (s.threads.set t .done).countP (Thread.on q) = 0 := by
        simp [Thread.on] at hcnt
        omega
      have hq := hall q
      rw [hrun] at hq
      obtain ⟨run', hrun', hrr⟩ := Option.map_eq_some_iff.mp hq
      simp only [Prod.mk.injEq] at hrr
      have e2 := h2.unique htd' (.idle (run := run') hnq (fun x hx => by
        rcases List.mem_append.mp hx with hx | hx
        · by_contra hc
          exact List.countP_eq_zero.mp hz x hx (by simpa using hc)
        · rw [List.mem_singleton.mp hx]; rfl) hrun')
      rw [hrr.1, hrr.2, hop] at e2
      simp [Thread.left] at e1 e2
      omega
    · exact .inr (.goto (extra := [.watchConnect s.inflights.length]) (x := .done) ht
        (by simp [Thread.on, hqr]) rfl rfl (by simp [Thread.on]) Iff.rfl (hall r) (dull_alike rfl))
  | connect t i f ht hf => exact .inr (rank_off (x := .watchReady i) ht (fun _ => rfl) (fun _ => rfl) rfl rfl rfl rfl)

theorem set_moves {l : List Thread} {t : Nat} {y x : Thread} (ht : l[t]? = some y) (h : x ≠ y) :
    (l.set t x)[t]? ≠ some y := by
  rw [List.getElem?_set_self (List.getElem?_eq_some_iff.mp ht).1]
  simpa using h

/-- A goroutine holding a run that does its next operation is somewhere else afterwards. -/
theorem moves_on {m : Int} {s s' : State} {act : Act} {e : Event} {t r : Nat} {y : Thread}
    (hs : step m s act = some (s', e)) (hact : act = .step t ∨ act = .fail t)
    (ht : s.threads[t]? = some y) (hy : y.on r = true) : s'.threads[t]? ≠ some y := by
  unfold step at hs
  split_ifs at hs
  rcases hact with rfl | rfl
  · simp only [ht] at hs
    cases y with
    | adding q => cases hs; exact set_moves ht (by simp)
    | getting q =>
      simp only at hs
      split at hs
      · cases hs
      · split_ifs at hs <;> cases hs <;> exact set_moves ht (by simp)
    | registering q =>
      simp only at hs
      split at hs
      · cases hs
      · cases hs
        have hlt := (List.getElem?_eq_some_iff.mp ht).1
        simp only
        rw [List.getElem?_append_left (by simpa using hlt)]
        exact set_moves ht (by simp)
    | watchConnect i => simp [Thread.on] at hy
    | watchReady i => simp [Thread.on] at hy
    | handling q a => simp [Thread.on] at hy
    | done => simp [Thread.on] at hy
    | requeue w q l pc =>
      simp only at hs
      obtain ⟨run, hrun, hs⟩ := Option.map_eq_some_iff.mp hs
      cases pc <;> simp only [stepRequeue, nilPanic] at hs <;>
        first
        | (cases hs; exact set_moves ht (by split_ifs <;> simp))
        | (cases hs; exact set_moves ht (by simp))
        | (cases hs; simp only [State.goto, threads_removeAttempt]; exact set_moves ht (by simp))
        | (split_ifs at hs <;> cases hs <;> exact set_moves ht (by simp))
    | close w q pc =>
      simp only at hs
      obtain ⟨run, hrun, hs⟩ := Option.map_eq_some_iff.mp hs
      cases pc <;> simp only [stepClose] at hs <;>
        first
        | (cases hs; exact set_moves ht (by split_ifs <;> simp))
        | (cases hs; exact set_moves ht (by simp))
        | (cases hs; simp only [State.goto, threads_removeAttempt]; exact set_moves ht (by simp))
        | (split_ifs at hs <;> cases hs <;> exact set_moves ht (by simp))
  · simp only [ht] at hs
    split at hs <;> first | (cases hs; done) | skip
    all_goals rename_i hh; cases hh
    all_goals first
      | (simp [Thread.on] at hy; done)
      | (cases hs; exact set_moves ht (by simp))

theorem Works.run {m : Int} {own : Nat → Nat} {evs : List Event} {s s' : State} {act : Act} {e : Event}
    {r : Nat} (hid : Ids own evs s) (htd : Tidy m evs s) (hs : Step m s s' e) (ho : Orderly s e)
    (hw : Works s r act e) : ∃ run, s.runs[r]? = some run := by
  rcases hw with rfl | ⟨a, hw⟩ | ⟨t, x, -, ht, hx⟩
  · cases hs with
    | take k _ hk => exact (htd.queued r (List.mem_of_getElem? hk)).imp fun _ h => h.1
    | quiet t y x _ ht hq => cases hq
    | write t y q f x _ ht hq => cases hq
    | crash t y q _ run ht h1 h2 h3 => simp at h3
  · have hmap : (s.mapping a).isSome = true := by
      rcases hw with rfl | rfl | rfl | rfl <;> exact ho.1
    have hfin : ∀ x ∈ s.threads, x.finishing r = false := by
      rcases hw with rfl | rfl | rfl | rfl <;> exact ho.2
    have hown : own a = r := by
      cases hs with
      | quiet t y x _ ht hq =>
        have hab : e.about = some (r, a) := by rcases hw with rfl | rfl | rfl | rfl <;> rfl
        rcases hq.about hab with hu | ⟨f, hf, h1, h2⟩
        · exact (hid.uses y (List.mem_of_getElem? ht) r a hu).1
        · rw [← h2, (hid.inflights f hf).1, h1]
      | write t y q f x _ ht hq => exfalso; cases hq <;> simp at hw
      | crash t y q _ run ht h1 h2 h3 =>
        exfalso
        rcases h3 with ⟨l, -, rfl⟩ | ⟨-, rfl⟩ <;> simp at hw
      | _ => simp at hw
    exact (htd.inFlight hid hown hmap hfin).imp fun _ h => h.1
  · exact (htd.run_of ht hx).imp fun _ h => h.1

/-- Doing something about a run uses up some of its budget; nothing else increases it. -/
theorem rank_works {m : Int} {evs : List Event} {s s' : State} {act : Act} {e : Event} {r n k : Nat}
    (h : ReachOrderly m evs s) (hs : step m s act = some (s', e)) (ho : Orderly s e)
    (h1 : Rank s r n) (h2 : Rank s' r k) : k ≤ n ∧ (Works s r act e → k < n) := by
  obtain ⟨own, hid⟩ := h.reach.ids
  have h' := ReachOrderly.step h hs ho
  rcases rank_step hid h.tidy h'.tidy (step_inv hs).1 ho h1 h2 with h3 | h3
  · exact ⟨h3.le, fun _ => h3⟩
  · refine ⟨(h2.unique h'.tidy (h3.rank h1)).le, fun hw => ?_⟩
    exfalso
    rcases hw with hw | ⟨a, hw⟩ | ⟨t, x, hact, ht, hx⟩
    · exact h3.event.1 hw
    · have := h3.event.2 a
      tauto
    · exact moves_on hs hact ht hx (h3.at_ t x hx ht)

/-- Executions without races, with the number of things done about run `r`. -/
inductive Doing (m : Int) (r : Nat) : Nat → List Event → State → Prop
  | init : Doing m r 0 [] {}
  | work {n evs s act s' e} : Doing m r n evs s → step m s act = some (s', e) → Orderly s e →
      Works s r act e → Doing m r (n + 1) (evs ++ [e]) s'
  | other {n evs s act s' e} : Doing m r n evs s → step m s act = some (s', e) → Orderly s e →
      ¬ Works s r act e → Doing m r n (evs ++ [e]) s'

theorem Doing.reach {m : Int} {r n : Nat} {evs : List Event} {s : State} (h : Doing m r n evs s) :
    ReachOrderly m evs s := by
  induction h with
  | init => exact .init
  | work _ hs ho _ ih => exact .step ih hs ho
  | other _ hs ho _ ih => exact .step ih hs ho

theorem runs_keep {m : Int} {s s' : State} {e : Event} {r : Nat} (hs : Step m s s' e)
    (h : r < s.runs.length) : r < s'.runs.length := by
  cases hs <;> simp_all [State.goto, State.modRun] <;> try omega
  all_goals
    rename_i a _
    have := congrArg List.length (map_removeAttempt s a (g := fun x : Run => x.closed) (fun _ => rfl))
    simp only [List.length_map] at this
    omega

/-- Only a submission creates a run. -/
theorem runs_new {m : Int} {s s' : State} {e : Event} {r : Nat} (hs : Step m s s' e)
    (h : s.runs.length ≤ r) (h' : r < s'.runs.length) :
    (∃ run, s'.runs[r]? = some run ∧ run.tries = m) ∧ .adding r ∈ s'.threads := by
  cases hs with
  | submit =>
    have : r = s.runs.length := by simp at h'; omega
    subst this
    simp
  | rqRemove t w q l a ht =>
    have := congrArg List.length (map_removeAttempt s a (g := fun x : Run => x.closed) (fun _ => rfl))
    simp [State.goto] at this h'
    omega
  | clRemove t w q a ht =>
    have := congrArg List.length (map_removeAttempt s a (g := fun x : Run => x.closed) (fun _ => rfl))
    simp [State.goto] at this h'
    omega
  | _ => simp (config := { failIfUnchanged := false }) [State.goto, State.modRun] at h'; omega

theorem Doing.bound {m : Int} {r n : Nat} {evs : List Event} {s : State} (h : Doing m r n evs s) :
    (s.runs[r]? = none ∧ n = 0) ∨ ∃ k, Rank s r k ∧ n + k ≤ 22 + 14 * m.toNat := by
  induction h with
  | init => left; simp
  | work h hs ho hw ih =>
    right
    obtain ⟨own, hid⟩ := h.reach.reach.ids
    obtain ⟨run, hrun⟩ := hw.run hid h.reach.tidy (step_inv hs).1 ho
    rcases ih with ih | ⟨k, hk, hle⟩
    · rw [hrun] at ih; simp at ih
    · have hlt := runs_keep (step_inv hs).1 (List.getElem?_eq_some_iff.mp hrun).1
      obtain ⟨k', hk'⟩ := Rank.exists (List.getElem?_eq_getElem hlt)
      have := (rank_works h.reach hs ho hk hk').2 hw
      exact ⟨k', hk', by omega⟩
  | @other n evs s act s' e h hs ho hw ih =>
    rcases ih with ⟨ih, rfl⟩ | ⟨k, hk, hle⟩
    · by_cases hr : r < s'.runs.length
      · right
        obtain ⟨⟨run, hrun, htr⟩, hadd⟩ := runs_new (step_inv hs).1 (List.getElem?_eq_none_iff.mp ih) hr
        exact ⟨_, .held hadd (by simp [Thread.on]) hrun, by rw [htr]; simp [Thread.left]; omega⟩
      · exact .inl ⟨by simpa using hr, rfl⟩
    · right
      obtain ⟨run, hrun⟩ := hk.run
      have hlt := runs_keep (step_inv hs).1 (List.getElem?_eq_some_iff.mp hrun).1
      obtain ⟨k', hk'⟩ := Rank.exists (List.getElem?_eq_getElem hlt)
      have := (rank_works h.reach hs ho hk hk').1
      exact ⟨k', hk', by omega⟩

/-- C172, the bound: without races, at most `22 + 14 · MaxGradeRetries` things are ever done about a run,
however long the grader runs and whatever else happens. -/
theorem C172_bounded {m : Int} {r n : Nat} {evs : List Event} {s : State} (h : Doing m r n evs s) :
    n ≤ 22 + 14 * m.toNat := by
  rcases h.bound with ⟨-, rfl⟩ | ⟨k, -, hk⟩ <;> omega

/-- What is known when a run is over: it was reported as removed, exactly once; its Ready channel was closed
unless its files could not be written; and if results were uploaded it was post-processed, with the same
exception. -/
theorem Over.done {m : Int} {evs : List Event} {s : State} {r : Nat} (h : ReachOrderly m evs s)
    (ho : Over s r) : evs.count (.removed r) = 1 ∧ (.ready r ∈ evs ∨ .notPersisted r ∈ evs) ∧
      ∀ a, .uploaded r a ∈ evs → .posted r ∈ evs ∨ .notPersisted r ∈ evs := by
  obtain ⟨⟨run, hrun, hcl⟩, hq, hno⟩ := ho
  have hz : s.threads.countP (Thread.on r) + s.queue.count r = 0 := by
    rw [List.count_eq_zero.mpr hq, List.countP_eq_zero.mpr (fun x hx => by simp [hno x hx])]
  have hf := h.tidy.idle r run hrun hz
  rw [hcl, if_pos rfl] at hf
  refine ⟨?_, hf.2.2.2.1, fun a ha => hf.2.2.1 ⟨a, ha⟩⟩
  have h1 := h.reach.once.removed r
  have h2 : s.threads.countP (Shot.removed.holds r) = 0 := by
    rw [List.countP_eq_zero]
    intro x hx hc
    have := hno x hx
    cases x <;> simp [Shot.holds, Thread.on] at hc this
    exact this hc.1
  rw [h2, show s.isClosed r = true by simp [State.isClosed, hrun, hcl]] at h1
  simpa using h1

/-- A run that is over stays over. -/
theorem Over.stays {m : Int} {evs : List Event} {s s' : State} {act : Act} {e : Event} {r : Nat}
    (h : ReachOrderly m evs s) (ho : Over s r) (hs : step m s act = some (s', e)) (hor : Orderly s e) :
    Over s' r := by
  obtain ⟨⟨run, hrun, hcl⟩, hq, hno⟩ := ho
  obtain ⟨own, hid⟩ := h.reach.ids
  have h' := ReachOrderly.step h hs hor
  have h1 : Rank s r 0 := by
    have := Rank.idle hq hno hrun
    rwa [hcl, if_pos rfl] at this
  have hlt := runs_keep (step_inv hs).1 (List.getElem?_eq_some_iff.mp hrun).1
  obtain ⟨k, hk⟩ := Rank.exists (List.getElem?_eq_getElem hlt)
  rcases rank_step hid h.tidy h'.tidy (step_inv hs).1 hor h1 hk with h2 | h2
  · omega
  · have h3 := h2.runs
    rw [hrun] at h3
    obtain ⟨run', hrun', hrr⟩ := Option.map_eq_some_iff.mp h3
    simp only [Prod.mk.injEq] at hrr
    refine ⟨⟨run', hrun', hrr.2.trans hcl⟩, fun hc => hq (h2.queue.mp hc), fun x hx => ?_⟩
    by_contra hc
    simp only [Bool.not_eq_false] at hc
    have := hno x (h2.from_ x hx hc)
    rw [hc] at this
    cases this

/-- C172, progress: without races, as long as a run is not over something can be done about it that is no
race either. -/
theorem C172_never_stuck {m : Int} {evs : List Event} {s : State} (h : ReachOrderly m evs s)
    {r : Nat} {run : Run} (hrun : s.runs[r]? = some run) (hno : ¬ Over s r) :
    ∃ act s' e, step m s act = some (s', e) ∧ Orderly s e ∧ Works s r act e := by
  have hup := h.tidy.calm
  by_cases h1 : ∃ x ∈ s.threads, x.on r = true
  · obtain ⟨x, hx, hxr⟩ := h1
    obtain ⟨t, ht⟩ := List.mem_iff_getElem?.mp hx
    have key : ∃ p, step m s (.step t) = some p ∧ Orderly s p.2 := by
      cases x <;> simp [Thread.on] at hxr
      case adding q => exact ⟨_, by simp [step, hup, ht]; rfl, by trivial⟩
      case getting q =>
        subst hxr
        cases hru : run.running <;> exact ⟨_, by simp [step, hup, ht, hrun, hru]; rfl, by trivial⟩
      case registering q => subst hxr; exact ⟨_, by simp [step, hup, ht, hrun]; rfl, by trivial⟩
      case requeue w q l pc =>
        subst hxr
        refine ⟨_, by simp [step, hup, ht, hrun]; rfl, ?_⟩
        cases pc <;> simp only [stepRequeue, nilPanic] <;> (try split_ifs) <;> trivial
      case close w q pc =>
        subst hxr
        refine ⟨_, by simp [step, hup, ht, hrun]; rfl, ?_⟩
        cases pc <;> simp only [stepClose] <;> (try split_ifs) <;> trivial
    obtain ⟨p, hp, ho⟩ := key
    exact ⟨.step t, p.1, p.2, hp, ho, .inr (.inr ⟨t, x, .inl rfl, ht, hxr⟩)⟩
  · have hall : ∀ x ∈ s.threads, x.on r = false := fun x hx => by
      by_contra hc
      exact h1 ⟨x, hx, by simpa using hc⟩
    by_cases hq : r ∈ s.queue
    · obtain ⟨k, hk⟩ := List.mem_iff_getElem?.mp hq
      exact ⟨.take k, _, _, by simp [step, hup, hk]; rfl, by trivial, .inl rfl⟩
    · have hopen : run.closed = false := by
        by_contra hc
        exact hno ⟨⟨run, hrun, by simpa using hc⟩, hq, hall⟩
      rcases C67_not_forgotten_partial h hrun hopen with h2 | h2 | ⟨a, i, f, h2, h3, h4, h5⟩
      · exact absurd h2 hq
      · exact absurd h2 h1
      · obtain ⟨own, hid⟩ := h.reach.ids
        obtain ⟨f', hf', hfa⟩ := hid.mapping a i h2
        rw [h3] at hf'; cases hf'
        have hord : Orderly s (.timedOut f.run f.attempt) := by
          refine ⟨by rw [hfa, h2]; rfl, fun x hx => ?_⟩
          have := hall x hx
          rw [h4]
          cases x <;> simp [Thread.on, Thread.finishing] at this ⊢ <;> exact this
        rcases h5 with h5 | h5 <;> obtain ⟨t, ht⟩ := List.mem_iff_getElem?.mp h5
        · exact ⟨.fail t, _, _, by simp [step, hup, ht, h3]; rfl, hord,
            .inr (.inl ⟨f.attempt, by simp [h4]⟩)⟩
        · exact ⟨.fail t, _, _, by simp [step, hup, ht, h3]; rfl, hord,
            .inr (.inl ⟨f.attempt, by simp [h4]⟩)⟩

/-! ## Infinite executions -/

/-- An infinite execution without races: what is done, and what happens, at every moment. -/
structure Forever (m : Int) where
  state : Nat → State
  act : Nat → Act
  event : Nat → Event
  start : state 0 = {}
  next : ∀ i, step m (state i) (act i) = some (state (i + 1), event i)
  orderly : ∀ i, Orderly (state i) (event i)

/-- What has happened before moment `i`. -/
def Forever.past {m : Int} (x : Forever m) (i : Nat) : List Event := (List.range i).map x.event

theorem Forever.reach {m : Int} (x : Forever m) (i : Nat) : ReachOrderly m (x.past i) (x.state i) := by
  induction i with
  | zero => rw [x.start]; exact .init
  | succ i ih =>
    have := ReachOrderly.step ih (x.next i) (x.orderly i)
    simpa [Forever.past, List.range_succ] using this

/-- The run is not neglected for ever: as long as it is submitted and not over, something will be done about
it at some later moment. Runners keep asking for runs, timers fire, goroutines are scheduled. -/
def Forever.Fair {m : Int} (x : Forever m) (r : Nat) : Prop :=
  ∀ i, r < (x.state i).runs.length → ¬ Over (x.state i) r →
    ∃ j ≥ i, Works (x.state j) r (x.act j) (x.event j)

theorem Forever.keeps {m : Int} (x : Forever m) {r i : Nat} (h : r < (x.state i).runs.length) :
    ∀ d, r < (x.state (i + d)).runs.length
  | 0 => h
  | d + 1 => runs_keep (step_inv (x.next (i + d))).1 (x.keeps h d)

theorem Forever.ranks {m : Int} (x : Forever m) {r i n k : Nat} (h : r < (x.state i).runs.length)
    (hn : Rank (x.state i) r n) {j : Nat} (hj : i ≤ j) (hk : Rank (x.state j) r k) : k ≤ n := by
  obtain ⟨d, rfl⟩ := Nat.exists_eq_add_of_le hj
  induction d generalizing k with
  | zero => exact (hk.unique (x.reach i).tidy hn).le
  | succ d ih =>
    obtain ⟨k', hk'⟩ := Rank.exists (List.getElem?_eq_getElem (x.keeps h d))
    have h1 := ih (by omega) hk'
    have h2 := (rank_works (x.reach (i + d)) (x.next (i + d)) (x.orderly _) hk' hk).1
    omega

/-- C172: in every execution without races, every submitted run that is not neglected for ever comes to its
end: from some moment on it is closed, in no queue and in nobody's hands; it was reported as removed exactly
once; its Ready channel was closed unless its files could not be written; and if results were uploaded for it,
it was post-processed, with the same exception. -/
theorem C172_ends {m : Int} (x : Forever m) {r i : Nat} (hsub : .submitted r ∈ x.past i) (hfair : x.Fair r) :
    ∃ j, ∀ k ≥ j, Over (x.state k) r ∧ (x.past k).count (.removed r) = 1 ∧
      (.ready r ∈ x.past k ∨ .notPersisted r ∈ x.past k) ∧
      ∀ a, .uploaded r a ∈ x.past k → .posted r ∈ x.past k ∨ .notPersisted r ∈ x.past k := by
  have hlt : r < (x.state i).runs.length := by
    obtain ⟨k, hk, hkr⟩ := List.mem_map.mp hsub
    rw [List.mem_range] at hk
    have hst := (step_inv (x.next k)).1
    rw [hkr] at hst
    have h1 : r < (x.state (k + 1)).runs.length := by
      generalize he : Event.submitted r = e at hst
      generalize hs' : x.state (k + 1) = s' at hst
      cases hst with
      | submit => cases he; simp
      | quiet t y z e ht hq => subst he; cases hq
      | write t y q f z e ht hq => subst he; cases hq
      | crash t y q e run ht h1 h2 h3 => subst he; simp at h3
      | _ => cases he
    obtain ⟨d, rfl⟩ := Nat.exists_eq_add_of_le (Nat.succ_le_of_lt hk)
    exact x.keeps h1 d
  obtain ⟨n, hn⟩ := Rank.exists (List.getElem?_eq_getElem hlt)
  have key : ∀ n i, r < (x.state i).runs.length → Rank (x.state i) r n →
      ∃ j ≥ i, Over (x.state j) r := by
    intro n
    induction n using Nat.strong_induction_on with
    | _ n ih =>
      intro i hlt hn
      by_cases ho : Over (x.state i) r
      · exact ⟨i, Nat.le_refl i, ho⟩
      · obtain ⟨j, hj, hw⟩ := hfair i hlt ho
        have hltj : r < (x.state j).runs.length := by
          obtain ⟨d, rfl⟩ := Nat.exists_eq_add_of_le hj
          exact x.keeps hlt d
        obtain ⟨k, hk⟩ := Rank.exists (List.getElem?_eq_getElem hltj)
        have hlt' := runs_keep (step_inv (x.next j)).1 hltj
        obtain ⟨k', hk'⟩ := Rank.exists (List.getElem?_eq_getElem hlt')
        have h1 := x.ranks hlt hn hj hk
        have h2 := (rank_works (x.reach j) (x.next j) (x.orderly j) hk hk').2 hw
        obtain ⟨l, hl, hov⟩ := ih k' (by omega) (j + 1) hlt' hk'
        exact ⟨l, by omega, hov⟩
  obtain ⟨j, hj, hov⟩ := key n i hlt hn
  have hall : ∀ d, Over (x.state (j + d)) r := by
    intro d
    induction d with
    | zero => exact hov
    | succ d ih => exact ih.stays (x.reach _) (x.next (j + d)) (x.orderly _)
  refine ⟨j, fun k hk => ?_⟩
  obtain ⟨d, rfl⟩ := Nat.exists_eq_add_of_le hk
  exact ⟨hall d, (hall d).done (x.reach _)⟩

/-! ## A case

A run is handed out, its runner's upload fails, it is requeued, handed out again and graded, with
`MaxGradeRetries` 2; afterwards nothing but uploads for an unknown attempt happens, for ever. -/

def caseActs : List Act := handOut ++ [.upload 1, .retry 3] ++ List.replicate 10 (.step 3) ++
  [.take 0, .step 4, .step 4, .upload 2] ++ List.replicate 11 (.step 6)

def caseAct (i : Nat) : Act := caseActs.getD i (.upload 99)

def caseState : Nat → State
  | 0 => {}
  | i + 1 => ((step 2 (caseState i) (caseAct i)).map (·.1)).getD {}

theorem caseState_succ (i : Nat) :
    caseState (i + 1) = ((step 2 (caseState i) (caseAct i)).map (·.1)).getD {} := rfl

def caseEvent (i : Nat) : Event := ((step 2 (caseState i) (caseAct i)).map (·.2)).getD .tau

theorem case_early : ∀ i < 32, ((step 2 (caseState i) (caseAct i)).isSome &&
    orderlyTest (caseState i) (caseEvent i)) = true := by decide +kernel

theorem case_late (d : Nat) : step 2 (caseState (32 + d)) (caseAct (32 + d)) =
    some (caseState (32 + d), .rejected 99) ∧ caseState (32 + d) = caseState 32 := by
  have hstep : ∀ d, step 2 (caseState 32) (caseAct (32 + d)) = some (caseState 32, .rejected 99) := by
    intro d
    have ha : caseAct (32 + d) = .upload 99 := by
      unfold caseAct
      rw [List.getD_eq_getElem?_getD, List.getElem?_eq_none]
      · rfl
      · have : caseActs.length = 32 := by decide
        omega
    have hc : (caseState 32).crashed = false := by decide +kernel
    have hm : (caseState 32).mapping 99 = none := by decide +kernel
    rw [ha]
    simp [step, hc, hm]
  have hsame : caseState (32 + d) = caseState 32 := by
    induction d with
    | zero => rfl
    | succ d ih =>
      rw [← Nat.add_assoc, caseState_succ, ih, hstep]
      simp only [Option.map_some, Option.getD_some]
  exact ⟨by rw [hsame]; exact hstep d, hsame⟩

def caseForever : Forever 2 where
  state := caseState
  act := caseAct
  event := caseEvent
  start := rfl
  next := by
    intro i
    by_cases hi : i < 32
    · have := case_early i hi
      simp only [Bool.and_eq_true] at this
      obtain ⟨p, hp⟩ := Option.isSome_iff_exists.mp this.1
      simp [caseState, caseEvent, hp]
    · obtain ⟨d, rfl⟩ := Nat.exists_eq_add_of_le (Nat.le_of_not_lt hi)
      have := (case_late d).1
      simp [caseState, caseEvent, this]
  orderly := by
    intro i
    by_cases hi : i < 32
    · have := case_early i hi
      simp only [Bool.and_eq_true] at this
      exact orderlyTest_iff.mp this.2
    · obtain ⟨d, rfl⟩ := Nat.exists_eq_add_of_le (Nat.le_of_not_lt hi)
      have := (case_late d).1
      simp [caseEvent, this, Orderly]

theorem case_over : Over (caseState 32) 0 :=
  ⟨⟨((caseState 32).runs[0]?).getD { tries := 0, attempt := 0 }, by decide +kernel, by decide +kernel⟩,
    by decide +kernel, by decide +kernel⟩

/-- The last operation on the run is the 32nd; until then there is always a later one. -/
theorem case_fair : caseForever.Fair 0 := by
  intro i _ hno
  by_cases hi : i ≤ 31
  · refine ⟨31, hi, .inr (.inr ⟨6, .close false 0 .event, .inl (by decide), ?_, rfl⟩)⟩
    show (caseState 31).threads[6]? = _
    decide +kernel
  · exfalso
    obtain ⟨d, rfl⟩ := Nat.exists_eq_add_of_le (show 32 ≤ i by omega)
    apply hno
    show Over (caseState (32 + d)) 0
    rw [(case_late d).2]
    exact case_over

/-- The theorem applies: the run is over, it was removed once and its Ready channel was closed. -/
example : ∃ j, ∀ k ≥ j, Over (caseForever.state k) 0 ∧ (caseForever.past k).count (.removed 0) = 1 :=
  (C172_ends caseForever (r := 0) (i := 1) (by decide +kernel) case_fair).imp
    fun _ h k hk => ⟨(h k hk).1, (h k hk).2.1⟩

/-- It was handed out twice and post-processed once. -/
example : (caseForever.past 32).count (.handed 0 1) = 1 ∧ (caseForever.past 32).count (.handed 0 2) = 1 ∧
    .failed 0 1 ∈ caseForever.past 32 ∧ .uploaded 0 2 ∈ caseForever.past 32 ∧
    (caseForever.past 32).count (.posted 0) = 1 := by decide +kernel

/-- In the middle, just requeued: not over, and something can be done. -/
example : ∃ evs s run, ReachOrderly 2 evs s ∧ s.runs[0]? = some run ∧ ¬ Over s 0 :=
  ⟨_, _, _, caseForever.reach 17, (List.getElem?_eq_getElem (i := 0) (by decide +kernel)), fun h => by
    have h1 : 0 ∈ (caseForever.state 17).queue := by decide +kernel
    exact h.2.1 h1⟩

end Quark.Lifecycle
