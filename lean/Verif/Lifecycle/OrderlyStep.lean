import Verif.Lifecycle.Orderly

/-!
# Orderly executions: every step keeps the invariant
-/

namespace Quark.Lifecycle

theorem modify_id {l : List Run} {r : Nat} : l.modify r id = l := by
  apply List.ext_getElem?
  intro q
  rw [List.getElem?_modify]
  split_ifs <;> simp

/-- The other events never concern what is known about runs. -/
def Event.bland : Event → Bool
  | .handed .. | .judgeError .. | .uploaded .. => false
  | _ => true

theorem neutral_bland {e : Event} (h : e.bland = true) (q a : Nat) : Neutral q a e := by
  cases e <;> simp [Event.bland] at h <;> simp [Neutral, Event.hands, Event.judges]

theorem others_bland {e : Event} (h : e.bland = true) (r : Nat) :
    (∀ q, q ≠ r → e.hands q = false ∧ e.judges q = false ∧ ∀ b, e ≠ .uploaded q b) ∧
      ∀ p b, e ≠ .handed p b := by
  cases e <;> simp [Event.bland] at h <;> simp [Event.hands, Event.judges]

/-- Unfold what is known and finish by arithmetic and logic. -/
macro "known" h:ident : tactic => `(tactic| (
  simp only [Fine, Good, Waits, Spent] at $h:ident ⊢
  generalize List.countP (Event.hands _) (sinceError _ _) = after at *
  generalize List.countP (Event.hands _) _ = H at *
  generalize errorSeen _ _ = je at *
  generalize resultSeen _ _ = up at *
  generalize processed _ _ = fin at *
  generalize signalled _ _ = rdy at *
  by_cases hje : je <;> by_cases hup : up <;> simp_all <;> omega))

macro "onEq" : tactic => `(tactic| (
  intro q hq
  first
  | (simp [Thread.on] at hq; done)
  | (simp [Thread.on] at hq; exact hq.symm)
  | (split_ifs at hq <;> (simp [Thread.on] at hq; exact hq.symm))))

/-- A goroutine holding run `r` moves on without touching anything. -/
theorem Tidy.quietOn {m : Int} {own : Nat → Nat} {evs : List Event} {s : State}
    (hid : Ids own evs s) (h : Tidy m evs s)
    {t r : Nat} {y x : Thread} {run : Run} {e : Event}
    (ht : s.threads[t]? = some y) (hrun : s.runs[r]? = some run)
    (hy : ∀ q, y.on q = (r == q)) (hx : ∀ q, x.on q = true → q = r) (he : e.bland = true)
    (hx' : ∀ w q l a, x ≠ .requeue w q l (.setId a))
    (hnew : Fine m r run (evs ++ [e]) (.thread y) →
      (x.on r = true → Fine m r run (evs ++ [e]) (.thread x)) ∧
      (x.on r = false → Fine m r run (evs ++ [e]) (if run.closed then .gone else .flight))) :
    Tidy m (evs ++ [e]) (s.goto t x) := by
  refine h.onStep hid ht hrun (f := id) hy hx ⟨rfl, modify_id.symm, rfl, h.calm, rfl, rfl⟩
    (.inl ⟨rfl, rfl⟩) (others_bland he r) (fun w q l a hc => absurd hc (hx' w q l a)) ?_
  intro hf
  exact hnew (hf.frame (neutral_bland he r run.attempt))

/-- A goroutine holding run `r` changes it. -/
theorem Tidy.writeOn {m : Int} {own : Nat → Nat} {evs : List Event} {s : State}
    (hid : Ids own evs s) (h : Tidy m evs s)
    {t r : Nat} {y x : Thread} {run : Run} {f : Run → Run} {e : Event}
    (ht : s.threads[t]? = some y) (hrun : s.runs[r]? = some run)
    (hy : ∀ q, y.on q = (r == q)) (hx : ∀ q, x.on q = (r == q)) (he : e.bland = true)
    (hx' : ∀ w q l a, x ≠ .requeue w q l (.setId a))
    (hf : (f run).attempt = run.attempt ∧ (f run).monitor = run.monitor ∨ run.monitor = false ∧
      (f run).monitor = false)
    (hnew : Fine m r run (evs ++ [e]) (.thread y) → Fine m r (f run) (evs ++ [e]) (.thread x)) :
    Tidy m (evs ++ [e]) ((s.modRun r f).goto t x) := by
  refine h.onStep hid ht hrun (f := f) hy (fun q hq => by rw [hx] at hq; simpa using (beq_iff_eq.mp hq).symm)
    ⟨rfl, rfl, rfl, h.calm, rfl, rfl⟩
    hf (others_bland he r) (fun w q l a hc => absurd hc (hx' w q l a)) ?_
  intro hf'
  refine ⟨fun _ => hnew (hf'.frame (neutral_bland he r run.attempt)), fun hc => ?_⟩
  rw [hx] at hc
  simp at hc

theorem Tidy.run_of {m : Int} {evs : List Event} {s : State} (h : Tidy m evs s)
    {t : Nat} {y : Thread} (ht : s.threads[t]? = some y) {r : Nat} (hy : y.on r = true) :
    ∃ run, s.runs[r]? = some run ∧ Fine m r run evs (.thread y) :=
  h.held y (List.mem_of_getElem? ht) r hy

/-- An attempt is timed out, or its upload is finished: the run was in flight. -/
theorem Tidy.inFlight {m : Int} {own : Nat → Nat} {evs : List Event} {s : State}
    (hid : Ids own evs s) (h : Tidy m evs s) {r a : Nat} (hown : own a = r)
    (hmap : (s.mapping a).isSome = true) (hfin : ∀ x ∈ s.threads, x.finishing r = false) :
    ∃ run, s.runs[r]? = some run ∧ s.threads.countP (Thread.on r) + s.queue.count r = 0 ∧
      Fine m r run evs .flight := by
  obtain ⟨i, hi⟩ := Option.isSome_iff_exists.mp hmap
  obtain ⟨f, run, hf, hrun, ha, hmon⟩ := h.reg.map a i hi
  have hfr : f.run = r := by
    have := (hid.runs f.run run hrun).1
    rw [ha, hown] at this
    exact this.symm
  rw [hfr] at hrun
  have hz : s.threads.countP (Thread.on r) + s.queue.count r = 0 := by
    have h1 : s.threads.countP (Thread.on r) = 0 := by
      rw [List.countP_eq_zero]
      intro x hx hxr
      obtain ⟨run', hrun', hfine⟩ := h.held x hx r hxr
      rw [hrun] at hrun'
      cases hrun'
      have hnf := hfin x hx
      cases x <;> simp [Thread.on, Thread.finishing] at hxr hnf
      case adding => simp [Fine, Good, hmon] at hfine
      case getting => simp [Fine, Good, hmon] at hfine
      case registering => simp [Fine, Good, hmon] at hfine
      case requeue => exact hnf hxr
      case close => exact hnf hxr
    have h2 : s.queue.count r = 0 := by
      rw [List.count_eq_zero]
      intro hq
      obtain ⟨run', hrun', hfine⟩ := h.queued r hq
      rw [hrun] at hrun'
      cases hrun'
      simp [Fine, Good, hmon] at hfine
    omega
  refine ⟨run, hrun, hz, ?_⟩
  have := h.idle r run hrun hz
  split_ifs at this with hc
  · simp [Fine, Good, hmon] at this
  · exact this

/-- The start of `Requeue` or `Close` for a run in flight. -/
theorem Tidy.start {m : Int} {own : Nat → Nat} {evs : List Event} {s : State}
    (hid : Ids own evs s) (h : Tidy m evs s) {t r a : Nat} {y x : Thread} {e : Event}
    (ht : s.threads[t]? = some y) (hy : ∀ q, y.on q = false) (hx : ∀ q, x.on q = (r == q))
    (hx' : ∀ w q l a, x ≠ .requeue w q l (.setId a))
    (hown : own a = r) (hmap : (s.mapping a).isSome = true)
    (hfin : ∀ x ∈ s.threads, x.finishing r = false)
    (he : (∀ q, q ≠ r → e.hands q = false ∧ e.judges q = false ∧ ∀ b, e ≠ .uploaded q b) ∧
      ∀ p b, e ≠ .handed p b)
    (hnew : ∀ run, Fine m r run evs .flight → Fine m r run (evs ++ [e]) (.thread x)) :
    Tidy m (evs ++ [e]) (s.goto t x) := by
  obtain ⟨run, hrun, hz, hf⟩ := h.inFlight hid hown hmap hfin
  refine h.advance hid ht (.inr ⟨hy, hz⟩) (fun q hq => by rw [hx] at hq; simpa using (beq_iff_eq.mp hq).symm)
    (extra := []) (by simp [State.goto]) (by simp) (fun _ _ => rfl) hrun
    (.inl ⟨rfl, fun _ => hnew run hf, fun hc => by rw [hx] at hc; simp at hc⟩)
    (neutral_other he.1 he.2) h.calm ?_ (fun w q l a hc => absurd hc (hx' w q l a))
    (fun p b hc => absurd hc (he.2 p b))
  exact h.reg.congr rfl rfl rfl

end Quark.Lifecycle
