import Verif.Lifecycle.Ids
import Mathlib.Algebra.Order.Ring.Int

/-!
# Orderly executions

The races between a timeout and an upload (or between two uploads for the same attempt) break several
of the grader's promises. This file proves that they are the only reason: in an execution in which every
timeout and every finished upload concerns an attempt that is still registered and a run nobody else is
requeuing or closing at that moment, all of them hold.
-/

namespace Quark.Lifecycle

/-- Whether a goroutine is requeuing or closing run `r`. -/
def Thread.finishing (r : Nat) : Thread → Bool
  | .requeue _ q _ _ => q == r
  | .close _ q _ => q == r
  | _ => false

/-- The condition under which an event is not part of a race. -/
def Orderly (s : State) : Event → Prop
  | .uploaded r a | .failed r a | .judgeError r a | .timedOut r a =>
    (s.mapping a).isSome = true ∧ ∀ x ∈ s.threads, x.finishing r = false
  | _ => True

/-- Executions without such races. -/
inductive ReachOrderly (m : Int) : List Event → State → Prop
  | init : ReachOrderly m [] {}
  | step {evs s a s' e} : ReachOrderly m evs s → step m s a = some (s', e) → Orderly s e →
      ReachOrderly m (evs ++ [e]) s'

theorem ReachOrderly.reach {m : Int} {evs : List Event} {s : State} (h : ReachOrderly m evs s) :
    Reach m evs s := by
  induction h with
  | init => exact .init
  | step _ hs _ ih => exact .step ih hs

/-! ## What is known about a run, depending on who holds it -/

/-- Whether an event hands run `r` to a runner. -/
def Event.hands (r : Nat) : Event → Bool
  | .handed q _ => q == r
  | _ => false

def Event.judges (r : Nat) : Event → Bool
  | .judgeError q _ => q == r
  | _ => false

/-- What follows the first judge error of run `r`. -/
def sinceError (r : Nat) (evs : List Event) : List Event := evs.dropWhile fun e => !e.judges r

/-- Where a run is. -/
inductive Holder where
  | thread (x : Thread)
  | queued
  | flight
  | gone

/-- The budget of a run waiting for a runner. -/
def Waits (m : Int) (run : Run) (H after : Nat) (je : Prop) : Prop :=
  (H : Int) + run.tries ≤ m ∧ (1 ≤ run.tries ∨ H = 0) ∧ (je → after = 0 ∧ run.tries ≤ 1)

/-- The budget of a run given to a runner; `last` tells whether a judge error is being handled. -/
def Spent (m : Int) (run : Run) (H after : Nat) (je : Prop) (last : Bool) : Prop :=
  (H : Int) + run.tries ≤ m + 1 ∧ (H : Int) ≤ max 1 m ∧
    (je → (last = true ∧ after = 0) ∨ (run.tries ≤ 1 ∧ after ≤ 1))

/-- What holds for a run in a given place. `H`: how often it was handed out; `after`: how often since
the first judge error; `je`: there was one; `fresh`: its attempt was never handed out; `up`: a result was
uploaded; `fin`: it was post-processed or could not be persisted; `rdy`: its Ready channel was closed or it
could not be persisted. -/
def Good (m : Int) (run : Run) (H after : Nat) (je fresh up fin rdy : Prop) : Holder → Prop
  | .queued | .thread (.adding _) | .thread (.getting _) | .thread (.registering _) =>
    run.monitor = false ∧ run.closed = false ∧ fresh ∧ ¬ up ∧ Waits m run H after je
  | .flight => run.monitor = true ∧ run.closed = false ∧ ¬ up ∧ Spent m run H after je false
  | .gone => run.monitor = false ∧ run.closed = true ∧ (up → fin) ∧ rdy ∧ (H : Int) ≤ max 1 m ∧
      (je → after ≤ 1)
  | .thread (.requeue _ _ last pc) =>
    run.closed = false ∧ ¬ up ∧ (match pc with
      | .check | .callRemove => run.monitor = true ∧ Spent m run H after je last
      | .remove a => run.monitor = true ∧ Spent m run H after je last ∧ a = run.attempt
      | .readTries => run.monitor = false ∧ Spent m run H after je last
      | .writeTries n => run.monitor = false ∧ Spent m run H after je last ∧ n = run.tries
      | .test => run.monitor = false ∧ (H : Int) + run.tries ≤ m ∧ (H : Int) ≤ max 1 m ∧
          (je → (last = true ∧ after = 0) ∨ (run.tries ≤ 0 ∧ after ≤ 1))
      | .setLast => run.monitor = false ∧ (H : Int) + run.tries ≤ m ∧ 1 ≤ run.tries ∧
          (je → (last = true ∧ after = 0))
      | .newId => run.monitor = false ∧ Waits m run H after je ∧ 1 ≤ run.tries
      | .setId _ => run.monitor = false ∧ Waits m run H after je ∧ 1 ≤ run.tries
      | .enqueue => run.monitor = false ∧ Waits m run H after je ∧ 1 ≤ run.tries ∧ fresh)
  | .thread (.close _ _ pc) =>
    (H : Int) ≤ max 1 m ∧ (je → after ≤ 1) ∧ (match pc with
      | .swap => run.closed = false ∧ (up → run.monitor = true)
      | .check => run.closed = true ∧ (up → run.monitor = true)
      | .getPost | .callRemove => run.closed = true ∧ run.monitor = true
      | .remove a => run.closed = true ∧ run.monitor = true ∧ a = run.attempt
      | .release p | .persist p | .signal p => run.closed = true ∧ run.monitor = false ∧ (up → p = true)
      | .post p => run.closed = true ∧ run.monitor = false ∧ (up → p = true) ∧ rdy
      | .event => run.closed = true ∧ run.monitor = false ∧ (up → fin) ∧ rdy)
  | .thread _ => True

def errorSeen (r : Nat) (evs : List Event) : Prop := ∃ a, .judgeError r a ∈ evs
def neverHanded (a : Nat) (evs : List Event) : Prop := ∀ r, .handed r a ∉ evs
def resultSeen (r : Nat) (evs : List Event) : Prop := ∃ a, .uploaded r a ∈ evs
def processed (r : Nat) (evs : List Event) : Prop := .posted r ∈ evs ∨ .notPersisted r ∈ evs
def signalled (r : Nat) (evs : List Event) : Prop := .ready r ∈ evs ∨ .notPersisted r ∈ evs

/-- `Good` with the facts taken from the past. -/
def Fine (m : Int) (r : Nat) (run : Run) (evs : List Event) : Holder → Prop :=
  Good m run (evs.countP (Event.hands r)) ((sinceError r evs).countP (Event.hands r))
    (errorSeen r evs) (neverHanded run.attempt evs) (resultSeen r evs) (processed r evs) (signalled r evs)

/-- Whether a goroutine holds run `r`. -/
def Thread.on (r : Nat) : Thread → Bool
  | .adding q | .getting q | .registering q | .requeue _ q _ _ | .close _ q _ => q == r
  | _ => false

/-- Registered attempts are the current attempts of the runs that have a monitor. -/
structure Registered (s : State) : Prop where
  map : ∀ a i, s.mapping a = some i → ∃ f run, s.inflights[i]? = some f ∧ s.runs[f.run]? = some run ∧
    run.attempt = a ∧ run.monitor = true
  mon : ∀ r run, s.runs[r]? = some run → run.monitor = true →
    ∃ i f, s.mapping run.attempt = some i ∧ s.inflights[i]? = some f ∧ f.run = r

structure Tidy (m : Int) (evs : List Event) (s : State) : Prop where
  calm : s.crashed = false
  occ : ∀ r, s.threads.countP (Thread.on r) + s.queue.count r ≤ 1
  held : ∀ x ∈ s.threads, ∀ r, x.on r = true → ∃ run, s.runs[r]? = some run ∧
    Fine m r run evs (.thread x)
  queued : ∀ r ∈ s.queue, ∃ run, s.runs[r]? = some run ∧ Fine m r run evs .queued
  idle : ∀ r run, s.runs[r]? = some run → s.threads.countP (Thread.on r) + s.queue.count r = 0 →
    Fine m r run evs (if run.closed then .gone else .flight)
  reg : Registered s
  setId : ∀ x ∈ s.threads, ∀ w r l a, x = .requeue w r l (.setId a) → neverHanded a evs

/-! ## Frame lemmas -/

theorem Good.mono {m : Int} {run : Run} {H after : Nat} {je fresh up fin rdy fin' rdy' : Prop}
    {h : Holder} (hg : Good m run H after je fresh up fin rdy h) (h1 : fin → fin') (h2 : rdy → rdy') :
    Good m run H after je fresh up fin' rdy' h := by
  cases h with
  | queued => exact hg
  | flight => exact hg
  | gone => exact ⟨hg.1, hg.2.1, fun h => h1 (hg.2.2.1 h), h2 hg.2.2.2.1, hg.2.2.2.2⟩
  | thread x =>
    cases x with
    | close w r pc =>
      cases pc with
      | post p => exact ⟨hg.1, hg.2.1, hg.2.2.1, hg.2.2.2.1, hg.2.2.2.2.1, h2 hg.2.2.2.2.2⟩
      | event =>
        exact ⟨hg.1, hg.2.1, hg.2.2.1, hg.2.2.2.1, fun h => h1 (hg.2.2.2.2.1 h), h2 hg.2.2.2.2.2⟩
      | _ => exact hg
    | _ => exact hg

/-- Whether event `e` has no influence on what is known about run `r` with attempt `a`. -/
def Neutral (r a : Nat) (e : Event) : Prop :=
  e.hands r = false ∧ e.judges r = false ∧ (∀ b, e ≠ .uploaded r b) ∧ ∀ p, e ≠ .handed p a

theorem since_snoc {r : Nat} {evs : List Event} {e : Event} (h : e.judges r = false) :
    sinceError r (evs ++ [e]) = sinceError r evs ++ (if (sinceError r evs).isEmpty then [] else [e]) := by
  unfold sinceError
  rw [List.dropWhile_append]
  split_ifs with h1
  · simp [h, List.isEmpty_iff.mp h1]
  · simp

theorem Fine.frame {m : Int} {r : Nat} {run : Run} {evs : List Event} {e : Event} {h : Holder}
    (hf : Fine m r run evs h) (hn : Neutral r run.attempt e) : Fine m r run (evs ++ [e]) h := by
  obtain ⟨h1, h2, h3, h4⟩ := hn
  have e1 : (evs ++ [e]).countP (Event.hands r) = evs.countP (Event.hands r) := by
    simp [List.countP_append, h1]
  have e2 : (sinceError r (evs ++ [e])).countP (Event.hands r)
      = (sinceError r evs).countP (Event.hands r) := by
    rw [since_snoc h2]
    split_ifs <;> simp [List.countP_append, h1]
  have e3 : errorSeen r (evs ++ [e]) = errorSeen r evs := by
    apply propext
    unfold errorSeen
    constructor
    · rintro ⟨a, ha⟩
      rcases List.mem_append.mp ha with ha | ha
      · exact ⟨a, ha⟩
      · rw [← List.mem_singleton.mp ha] at h2; simp [Event.judges] at h2
    · rintro ⟨a, ha⟩; exact ⟨a, List.mem_append_left _ ha⟩
  have e4 : neverHanded run.attempt (evs ++ [e]) = neverHanded run.attempt evs := by
    apply propext
    unfold neverHanded
    constructor
    · intro hh p hp; exact hh p (List.mem_append_left _ hp)
    · intro hh p hp
      rcases List.mem_append.mp hp with hp | hp
      · exact hh p hp
      · exact h4 p (List.mem_singleton.mp hp).symm
  have e5 : resultSeen r (evs ++ [e]) = resultSeen r evs := by
    apply propext
    unfold resultSeen
    constructor
    · rintro ⟨a, ha⟩
      rcases List.mem_append.mp ha with ha | ha
      · exact ⟨a, ha⟩
      · exact absurd (List.mem_singleton.mp ha).symm (h3 a)
    · rintro ⟨a, ha⟩; exact ⟨a, List.mem_append_left _ ha⟩
  unfold Fine at hf ⊢
  rw [e1, e2, e3, e4, e5]
  exact hf.mono (fun h => h.imp (List.mem_append_left _) (List.mem_append_left _))
    (fun h => h.imp (List.mem_append_left _) (List.mem_append_left _))

theorem two_le_countP {f : Thread → Bool} {l : List Thread} {y z : Thread} (hy : y ∈ l) (hz : z ∈ l)
    (hne : y ≠ z) (fy : f y = true) (fz : f z = true) : 2 ≤ l.countP f := by
  rw [List.countP_eq_length_filter]
  have hy' : y ∈ l.filter f := List.mem_filter.mpr ⟨hy, fy⟩
  have hz' : z ∈ l.filter f := List.mem_filter.mpr ⟨hz, fz⟩
  match hl : l.filter f with
  | [] => rw [hl] at hy'; cases hy'
  | [w] =>
    rw [hl] at hy' hz'
    simp at hy' hz'
    exact absurd (hy'.trans hz'.symm) hne
  | _ :: _ :: _ => simp

theorem setId_on {w : Bool} {r : Nat} {l : Bool} {a q : Nat} :
    Thread.on q (.requeue w r l (.setId a)) = true ↔ r = q := by simp [Thread.on]

/-- What the initial goroutine, the final one and the change of the state must satisfy for a step of a
goroutine on run `r`. -/
theorem Tidy.advance {m : Int} {own : Nat → Nat} {evs : List Event} {s s' : State}
    (hid : Ids own evs s) (h : Tidy m evs s)
    {t r : Nat} {y x : Thread} {extra : List Thread} {run' : Run} {e : Event}
    (ht : s.threads[t]? = some y)
    (hy : (∀ q, y.on q = (r == q)) ∨
      ((∀ q, y.on q = false) ∧ s.threads.countP (Thread.on r) + s.queue.count r = 0))
    (hx : ∀ q, x.on q = true → q = r)
    (hthr : s'.threads = s.threads.set t x ++ extra)
    (hext : ∀ z ∈ extra, ∀ q, z.on q = false)
    (hruns : ∀ q, q ≠ r → s'.runs[q]? = s.runs[q]?) (hr' : s'.runs[r]? = some run')
    (hq : (s'.queue = s.queue ∧ (x.on r = true → Fine m r run' (evs ++ [e]) (.thread x)) ∧
        (x.on r = false → Fine m r run' (evs ++ [e]) (if run'.closed then .gone else .flight))) ∨
      (s'.queue = s.queue ++ [r] ∧ x.on r = false ∧ Fine m r run' (evs ++ [e]) .queued))
    (hne : ∀ q a, q ≠ r → own a = q → Neutral q a e)
    (hcalm : s'.crashed = false) (hreg : Registered s')
    (hset : ∀ w q l a, x = .requeue w q l (.setId a) → neverHanded a (evs ++ [e]))
    (hhand : ∀ p b, e = .handed p b → own b = r ∧ (∀ q, y.on q = (r == q)) ∧ ∃ r, y = .registering r) :
    Tidy m (evs ++ [e]) s' := by
  have hym := List.mem_of_getElem? ht
  have hcnt := fun q => countP_goto (f := Thread.on q) (x := x) ht
  have hextc : ∀ q, extra.countP (Thread.on q) = 0 := fun q =>
    List.countP_eq_zero.mpr (fun z hz => by simp [hext z hz q])
  have hnx : ∀ q, q ≠ r → x.on q = false := fun q hqr => by
    by_contra hc
    exact hqr (hx q (by simpa using hc))
  have hny : ∀ q, q ≠ r → y.on q = false := fun q hqr => by
    rcases hy with hy | hy
    · rw [hy q]; simp [Ne.symm hqr]
    · exact hy.1 q
  -- another goroutine on r cannot exist
  have hsole : ∀ z ∈ s.threads.set t x, z.on r = true → z = x := by
    intro z hz hzr
    obtain ⟨hlt, hget⟩ := List.getElem?_eq_some_iff.mp ht
    by_contra hne'
    obtain ⟨u, hu, hzu⟩ := List.getElem_of_mem hz
    rw [List.length_set] at hu
    by_cases hut : u = t
    · subst hut; simp at hzu; exact hne' hzu.symm
    · rw [List.getElem_set_ne (Ne.symm hut)] at hzu
      have ho := h.occ r
      rcases hy with hy | hy
      · -- both at t and u
        have h1 := countP_goto (f := Thread.on r) (x := Thread.done) ht
        have h2 : 0 < (s.threads.set t .done).countP (Thread.on r) := by
          apply List.countP_pos_iff.mpr
          refine ⟨z, ?_, hzr⟩
          have : (s.threads.set t .done)[u]'(by simpa using hu) = z := by
            rw [List.getElem_set_ne (Ne.symm hut)]; exact hzu
          rw [← this]
          exact List.getElem_mem _
        rw [hy r] at h1
        simp [Thread.on] at h1
        omega
      · have : 0 < s.threads.countP (Thread.on r) :=
          List.countP_pos_iff.mpr ⟨z, by rw [← hzu]; exact List.getElem_mem _, hzr⟩
        omega
  have hframe : ∀ q run hol, q ≠ r → s.runs[q]? = some run → Fine m q run evs hol →
      Fine m q run (evs ++ [e]) hol := fun q run hol hqr hrun hf =>
    hf.frame (hne q run.attempt hqr (hid.runs q run hrun).1)
  have hqother : ∀ q, q ≠ r → s'.queue.count q = s.queue.count q := by
    intro q hqr
    rcases hq with ⟨hq, -⟩ | ⟨hq, -⟩
    · rw [hq]
    · rw [hq, List.count_append]
      simp [Ne.symm hqr]
  have hcother : ∀ q, q ≠ r → s'.threads.countP (Thread.on q) = s.threads.countP (Thread.on q) := by
    intro q hqr
    have := hcnt q
    rw [hnx q hqr, hny q hqr] at this
    rw [hthr, List.countP_append, hextc]
    simpa using this
  -- occupation of r before
  have hocc : s.threads.countP (Thread.on r) + s.queue.count r = (if y.on r then 1 else 0) ∧
      s.queue.count r = 0 := by
    have ho := h.occ r
    rcases hy with hy | hy
    · have hyr : y.on r = true := by simp [hy]
      have : 0 < s.threads.countP (Thread.on r) := List.countP_pos_iff.mpr ⟨y, hym, hyr⟩
      rw [hyr, if_pos rfl]
      constructor <;> omega
    · rw [hy.1 r, if_neg (by simp)]
      constructor <;> omega
  have hoccr : s'.threads.countP (Thread.on r) = if x.on r then 1 else 0 := by
    have := hcnt r
    rw [hthr, List.countP_append, hextc]
    omega
  constructor
  · exact hcalm
  · intro q
    by_cases hqr : q = r
    · subst hqr
      rw [hoccr]
      rcases hq with ⟨hq, -⟩ | ⟨hq, hxr, -⟩
      · rw [hq, hocc.2]; split_ifs <;> omega
      · rw [hq, hxr, List.count_append, hocc.2]; simp
    · rw [hqother q hqr, hcother q hqr]; exact h.occ q
  · intro z hz q hzq
    rw [hthr] at hz
    rcases List.mem_append.mp hz with hz | hz
    · by_cases hqr : q = r
      · subst hqr
        have := hsole z hz hzq
        subst this
        rcases hq with ⟨-, hq, -⟩ | ⟨-, hq, -⟩
        · exact ⟨run', hr', hq hzq⟩
        · rw [hq] at hzq; cases hzq
      · rcases List.mem_or_eq_of_mem_set hz with hz | hz
        · obtain ⟨run, hrun, hf⟩ := h.held z hz q hzq
          exact ⟨run, by rw [hruns q hqr]; exact hrun, hframe q run _ hqr hrun hf⟩
        · subst hz; rw [hnx q hqr] at hzq; cases hzq
    · rw [hext z hz q] at hzq; cases hzq
  · intro q hqm
    by_cases hqr : q = r
    · subst hqr
      rcases hq with ⟨hq, -⟩ | ⟨hq, -, hf⟩
      · rw [hq] at hqm
        have := List.count_pos_iff.mpr hqm
        omega
      · exact ⟨run', hr', hf⟩
    · have hqm' : q ∈ s.queue := by
        rcases hq with ⟨hq, -⟩ | ⟨hq, -⟩
        · rwa [hq] at hqm
        · rw [hq] at hqm
          rcases List.mem_append.mp hqm with hqm | hqm
          · exact hqm
          · exact absurd (List.mem_singleton.mp hqm) hqr
      obtain ⟨run, hrun, hf⟩ := h.queued q hqm'
      exact ⟨run, by rw [hruns q hqr]; exact hrun, hframe q run _ hqr hrun hf⟩
  · intro q run hrun hzero
    by_cases hqr : q = r
    · subst hqr
      rw [hr'] at hrun
      cases hrun
      rw [hoccr] at hzero
      have hxr : x.on q = false := by
        by_contra hc
        simp only [Bool.not_eq_false] at hc
        rw [hc] at hzero
        simp at hzero
      rcases hq with ⟨-, -, hf⟩ | ⟨hq, -⟩
      · exact hf hxr
      · rw [hq, List.count_append] at hzero; simp at hzero
    · rw [hruns q hqr] at hrun
      rw [hqother q hqr, hcother q hqr] at hzero
      exact hframe q run _ hqr hrun (h.idle q run hrun hzero)
  · exact hreg
  · intro z hz w q l a hza
    rw [hthr] at hz
    rcases List.mem_append.mp hz with hz | hz
    · rcases List.mem_or_eq_of_mem_set hz with hz | hz
      · have h1 := h.setId z hz w q l a hza
        intro p hp
        rcases List.mem_append.mp hp with hp | hp
        · exact h1 p hp
        · obtain ⟨h2, h3, r', h4⟩ := hhand p a (List.mem_singleton.mp hp).symm
          have h5 := (hid.uses z hz q a (by rw [hza]; exact .setId w q l a)).1
          have hqr : q = r := by rw [← h5, h2]
          have : 2 ≤ s.threads.countP (Thread.on r) := two_le_countP hym hz
            (by rw [h4, hza]; simp) (by simp [h3]) (by rw [hza, setId_on]; exact hqr)
          have := h.occ r
          omega
      · exact hset w q l a (by rw [← hz, hza])
    · have := hext z hz q
      rw [hza] at this
      simp [Thread.on] at this


theorem Registered.congr {s s' : State} (h : Registered s) (h1 : s'.mapping = s.mapping)
    (h2 : s'.inflights.map (·.run) = s.inflights.map (·.run))
    (h3 : s'.runs.map (fun x => (x.attempt, x.monitor)) = s.runs.map (fun x => (x.attempt, x.monitor))) :
    Registered s' := by
  have key1 : ∀ i : Nat, (s'.inflights[i]?).map (fun x : Inflight => x.run)
      = (s.inflights[i]?).map (fun x : Inflight => x.run) := fun i => by
    rw [← List.getElem?_map, ← List.getElem?_map, h2]
  have key2 : ∀ r : Nat, (s'.runs[r]?).map (fun x => (x.attempt, x.monitor))
      = (s.runs[r]?).map (fun x => (x.attempt, x.monitor)) := fun r => by
    rw [← List.getElem?_map, ← List.getElem?_map, h3]
  constructor
  · intro a i ha
    rw [h1] at ha
    obtain ⟨f, run, hf, hrun, h4, h5⟩ := h.map a i ha
    have k1 := key1 i
    rw [hf] at k1
    obtain ⟨f', hf', hff⟩ := Option.map_eq_some_iff.mp k1
    have k2 := key2 f.run
    rw [hrun] at k2
    obtain ⟨run', hrun', hrr⟩ := Option.map_eq_some_iff.mp k2
    simp only [Prod.mk.injEq] at hrr
    exact ⟨f', run', hf', by rw [hff]; exact hrun', hrr.1.trans h4, hrr.2.trans h5⟩
  · intro r run' hrun' hmon
    have k2 := key2 r
    rw [hrun'] at k2
    obtain ⟨run, hrun, hrr⟩ := Option.map_eq_some_iff.mp k2.symm
    simp only [Prod.mk.injEq] at hrr
    obtain ⟨i, f, h4, h5, h6⟩ := h.mon r run hrun (hrr.2.trans hmon)
    have k1 := key1 i
    rw [h5] at k1
    obtain ⟨f', hf', hff⟩ := Option.map_eq_some_iff.mp k1
    exact ⟨i, f', by rw [h1, ← hrr.1]; exact h4, hf', hff.trans h6⟩

theorem neutral_other {e : Event} {r : Nat} (hr : ∀ q, q ≠ r → e.hands q = false ∧ e.judges q = false ∧
      ∀ b, e ≠ .uploaded q b) (hh : ∀ p b, e ≠ .handed p b) {own : Nat → Nat} :
    ∀ q a, q ≠ r → own a = q → Neutral q a e :=
  fun q a hq _ => ⟨(hr q hq).1, (hr q hq).2.1, (hr q hq).2.2, fun p => hh p a⟩

/-- A step of a goroutine that holds a run and goes on holding it, or lets it go. -/
theorem Tidy.onStep {m : Int} {own : Nat → Nat} {evs : List Event} {s s' : State}
    (hid : Ids own evs s) (h : Tidy m evs s)
    {t r : Nat} {y x : Thread} {run : Run} {f : Run → Run} {e : Event}
    (ht : s.threads[t]? = some y) (hrun : s.runs[r]? = some run)
    (hy : ∀ q, y.on q = (r == q)) (hx : ∀ q, x.on q = true → q = r)
    (hs : s'.threads = s.threads.set t x ∧ s'.runs = s.runs.modify r f ∧ s'.queue = s.queue ∧
      s'.crashed = false ∧ s'.mapping = s.mapping ∧ s'.inflights = s.inflights)
    (hf : (f run).attempt = run.attempt ∧ (f run).monitor = run.monitor ∨ run.monitor = false ∧
      (f run).monitor = false)
    (he : (∀ q, q ≠ r → e.hands q = false ∧ e.judges q = false ∧ ∀ b, e ≠ .uploaded q b) ∧
      ∀ p b, e ≠ .handed p b)
    (hset : ∀ w q l a, x = .requeue w q l (.setId a) → neverHanded a (evs ++ [e]))
    (hnew : Fine m r run evs (.thread y) →
      (x.on r = true → Fine m r (f run) (evs ++ [e]) (.thread x)) ∧
      (x.on r = false → Fine m r (f run) (evs ++ [e]) (if (f run).closed then .gone else .flight))) :
    Tidy m (evs ++ [e]) s' := by
  obtain ⟨s1, s2, s3, s4, s5, s6⟩ := hs
  have hr' : s'.runs[r]? = some (f run) := by rw [s2, List.getElem?_modify]; simp [hrun]
  have hother : ∀ q, q ≠ r → s'.runs[q]? = s.runs[q]? := fun q hq => by
    rw [s2, List.getElem?_modify]; simp [Ne.symm hq]
  obtain ⟨run0, hrun0, hfine⟩ := h.held y (List.mem_of_getElem? ht) r (by simp [hy])
  rw [hrun] at hrun0
  cases hrun0
  refine h.advance hid ht (.inl hy) hx (extra := []) (by rw [s1]; simp) (by simp) hother hr'
    (.inl ⟨s3, hnew hfine⟩) (neutral_other he.1 he.2) s4 ?_ hset (fun p b hc => absurd hc (he.2 p b))
  rcases hf with ⟨hf1, hf2⟩ | ⟨hf1, hf2⟩
  · refine h.reg.congr s5 (by rw [s6]) ?_
    apply List.ext_getElem?
    intro q
    rw [List.getElem?_map, List.getElem?_map]
    by_cases hq : q = r
    · subst hq; rw [hr', hrun]; simp [hf1, hf2]
    · rw [hother q hq]
  · constructor
    · intro a i ha
      rw [s5] at ha
      obtain ⟨g, run1, h1, h2, h3, h4⟩ := h.reg.map a i ha
      have hgr : g.run ≠ r := by
        intro hc
        rw [hc, hrun] at h2
        cases h2
        rw [hf1] at h4
        cases h4
      exact ⟨g, run1, by rw [s6]; exact h1, by rw [hother _ hgr]; exact h2, h3, h4⟩
    · intro q run1 hq hmon
      by_cases hqr : q = r
      · subst hqr
        rw [hr'] at hq
        cases hq
        rw [hf2] at hmon
        cases hmon
      · rw [hother q hqr] at hq
        rw [s5, s6]
        exact h.reg.mon q run1 hq hmon

/-- A step of goroutines that hold no run. -/
theorem Tidy.offStage {m : Int} {evs : List Event} {s s' : State} (h : Tidy m evs s)
    {e : Event} {extra : List Thread}
    (hl : (s'.threads = s.threads ++ extra) ∨
      ∃ t y x, s.threads[t]? = some y ∧ s'.threads = s.threads.set t x ++ extra ∧ (∀ q, y.on q = false) ∧
        ∀ q, x.on q = false)
    (hext : ∀ z ∈ extra, ∀ q, z.on q = false)
    (hs : s'.runs = s.runs ∧ s'.queue = s.queue ∧ s'.crashed = false ∧ s'.mapping = s.mapping ∧
      s'.inflights.map (·.run) = s.inflights.map (·.run))
    (he : ∀ q a, Neutral q a e) : Tidy m (evs ++ [e]) s' := by
  obtain ⟨s2, s3, s4, s5, s6⟩ := hs
  have hextc : ∀ q, extra.countP (Thread.on q) = 0 := fun q =>
    List.countP_eq_zero.mpr (fun z hz => by simp [hext z hz q])
  have hc : ∀ q, s'.threads.countP (Thread.on q) = s.threads.countP (Thread.on q) := by
    intro q
    rcases hl with hl | ⟨t, y, x, ht, hl, hy, hx⟩
    · rw [hl, List.countP_append, hextc]; rfl
    · have := countP_goto (f := Thread.on q) (x := x) ht
      rw [hy, hx] at this
      rw [hl, List.countP_append, hextc]
      simpa using this
  have hm : ∀ z ∈ s'.threads, ∀ q, z.on q = true → z ∈ s.threads := by
    intro z hz q hzq
    rcases hl with hl | ⟨t, y, x, ht, hl, hy, hx⟩
    · rw [hl] at hz
      rcases List.mem_append.mp hz with hz | hz
      · exact hz
      · rw [hext z hz q] at hzq; cases hzq
    · rw [hl] at hz
      rcases List.mem_append.mp hz with hz | hz
      · rcases List.mem_or_eq_of_mem_set hz with hz | hz
        · exact hz
        · rw [hz, hx q] at hzq; cases hzq
      · rw [hext z hz q] at hzq; cases hzq
  constructor
  · exact s4
  · intro r; rw [hc, s3]; exact h.occ r
  · intro z hz r hzr
    obtain ⟨run, h1, h2⟩ := h.held z (hm z hz r hzr) r hzr
    exact ⟨run, by rw [s2]; exact h1, h2.frame (he _ _)⟩
  · intro r hr
    rw [s3] at hr
    obtain ⟨run, h1, h2⟩ := h.queued r hr
    exact ⟨run, by rw [s2]; exact h1, h2.frame (he _ _)⟩
  · intro r run hr hz
    rw [s2] at hr
    rw [hc, s3] at hz
    exact (h.idle r run hr hz).frame (he _ _)
  · exact h.reg.congr s5 s6 (by rw [s2])
  · intro z hz w r l' a hza
    have h1 := h.setId z (hm z hz r (by rw [hza, setId_on])) w r l' a hza
    intro p hp
    rcases List.mem_append.mp hp with hp | hp
    · exact h1 p hp
    · exact (he r a).2.2.2 p (List.mem_singleton.mp hp).symm

end Quark.Lifecycle
