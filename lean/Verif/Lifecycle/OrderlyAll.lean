import Verif.Lifecycle.OrderlyStep
import Mathlib.Data.List.TakeWhile
import Mathlib.Data.List.Perm.Basic

/-!
# Orderly executions: the invariant holds throughout
-/

namespace Quark.Lifecycle

/-- The events of a finished upload and of a timeout, seen from the other runs. -/
theorem others_start {e : Event} {r a : Nat}
    (h : e = .uploaded r a ∨ e = .failed r a ∨ e = .judgeError r a ∨ e = .timedOut r a) :
    (∀ q, q ≠ r → e.hands q = false ∧ e.judges q = false ∧ ∀ b, e ≠ .uploaded q b) ∧
      ∀ p b, e ≠ .handed p b := by
  rcases h with h | h | h | h <;> subst h <;> refine ⟨fun q hq => ⟨?_, ?_, ?_⟩, ?_⟩ <;>
    simp [Event.hands, Event.judges] <;> tauto

theorem since_empty {r : Nat} {evs : List Event} (h : ¬ errorSeen r evs) : sinceError r evs = [] := by
  unfold sinceError
  rw [List.dropWhile_eq_nil_iff]
  intro e he
  cases e <;> simp [Event.judges]
  rename_i q a
  rintro rfl
  exact h ⟨a, he⟩

/-- The first judge error. -/
theorem since_first {r a : Nat} {evs : List Event} (h : ¬ errorSeen r evs) :
    sinceError r (evs ++ [.judgeError r a]) = [.judgeError r a] := by
  have h0 := since_empty h
  unfold sinceError at h0 ⊢
  rw [List.dropWhile_append, h0]
  simp [Event.judges]

/-- A later one. -/
theorem since_again {r a : Nat} {evs : List Event} (h : errorSeen r evs) :
    sinceError r (evs ++ [.judgeError r a]) = sinceError r evs ++ [.judgeError r a] := by
  have h0 : sinceError r evs ≠ [] := by
    unfold sinceError
    rw [Ne, List.dropWhile_eq_nil_iff]
    intro hc
    obtain ⟨b, hb⟩ := h
    have := hc _ hb
    simp [Event.judges] at this
  unfold sinceError at h0 ⊢
  rw [List.dropWhile_append, if_neg]
  simpa using h0

theorem mem_snoc_iff {P : Nat → Event} {evs : List Event} {e : Event} :
    (∃ a, P a ∈ evs ++ [e]) ↔ (∃ a, P a ∈ evs) ∨ ∃ a, e = P a := by
  simp only [List.mem_append, List.mem_singleton, exists_or]
  simp [eq_comm]

theorem start_requeue {m : Int} {r : Nat} {run : Run} {evs : List Event} {e : Event} {w : Bool}
    (he : e.bland = true) (hf : Fine m r run evs .flight) :
    Fine m r run (evs ++ [e]) (.thread (.requeue w r false .check)) := by
  have := hf.frame (neutral_bland he r run.attempt)
  exact ⟨this.2.1, this.2.2.1, this.1, this.2.2.2⟩

theorem start_error {m : Int} {r a : Nat} {run : Run} {evs : List Event} {w : Bool}
    (hf : Fine m r run evs .flight) :
    Fine m r run (evs ++ [.judgeError r a]) (.thread (.requeue w r true .check)) := by
  obtain ⟨h1, h2, h3, h4, h5, h6⟩ := hf
  have e1 : (evs ++ [Event.judgeError r a]).countP (Event.hands r) = evs.countP (Event.hands r) := by
    simp [List.countP_append, Event.hands]
  have e2 : ¬ resultSeen r (evs ++ [.judgeError r a]) := by
    rintro ⟨b, hb⟩
    rcases List.mem_append.mp hb with hb | hb
    · exact h3 ⟨b, hb⟩
    · simp at hb
  refine ⟨h2, e2, h1, ?_, ?_, ?_⟩
  · rw [e1]; exact h4
  · rw [e1]; exact h5
  · intro _
    by_cases hs : errorSeen r evs
    · right
      rcases h6 hs with h6 | h6
      · simp at h6
      · rw [since_again hs]
        simpa [List.countP_append, Event.hands] using h6
    · left
      rw [since_first hs]
      simp [Event.hands]

theorem start_close {m : Int} {r a : Nat} {run : Run} {evs : List Event} {w : Bool}
    (hf : Fine m r run evs .flight) :
    Fine m r run (evs ++ [.uploaded r a]) (.thread (.close w r .swap)) := by
  obtain ⟨h1, h2, h3, h4, h5, h6⟩ := hf
  have e1 : (evs ++ [Event.uploaded r a]).countP (Event.hands r) = evs.countP (Event.hands r) := by
    simp [List.countP_append, Event.hands]
  refine ⟨?_, ?_, h2, fun _ => h1⟩
  · rw [e1]; exact h5
  · intro hj
    have hj' : errorSeen r evs := by
      obtain ⟨b, hb⟩ := hj
      rcases List.mem_append.mp hb with hb | hb
      · exact ⟨b, hb⟩
      · simp at hb
    have e2 : (sinceError r (evs ++ [.uploaded r a])).countP (Event.hands r)
        = (sinceError r evs).countP (Event.hands r) := by
      rw [since_snoc rfl]
      split_ifs <;> simp [List.countP_append, Event.hands]
    rw [e2]
    rcases h6 hj' with h6 | h6
    · simp at h6
    · exact h6.2

theorem Tidy.quiet {m : Int} {own : Nat → Nat} {evs : List Event} {s : State} {t : Nat} {y x : Thread}
    {e : Event} (hid : Ids own evs s) (h : Tidy m evs s) (ht : s.threads[t]? = some y)
    (hq : Quiet s y x e) (ho : Orderly s e) : Tidy m (evs ++ [e]) (s.goto t x) := by
  cases hq with
  | gettingAgain r run hrun hr =>
    exact h.quietOn hid ht hrun (by simp [Thread.on]) (by onEq) rfl (by simp)
      (fun hf => ⟨fun _ => hf, by simp [Thread.on]⟩)
  | watchDone i f hf hr =>
    exact h.offStage (extra := []) (.inr ⟨t, _, .done, ht, by simp [State.goto], fun _ => rfl, fun _ => rfl⟩)
      (by simp) ⟨rfl, rfl, h.calm, rfl, rfl⟩ (neutral_bland rfl)
  | aborted r a =>
    exact h.offStage (extra := []) (.inr ⟨t, _, .done, ht, by simp [State.goto], fun _ => rfl, fun _ => rfl⟩)
      (by simp) ⟨rfl, rfl, h.calm, rfl, rfl⟩ (neutral_bland rfl)
  | uploaded r a =>
    have hown := (hid.uses _ (List.mem_of_getElem? ht) r a (.handling r a)).1
    refine h.start hid ht (fun _ => rfl) (fun _ => rfl) (by simp) hown ho.1 ho.2
      (others_start (.inl rfl)) ?_
    intro run hf
    exact start_close hf
  | failed r a =>
    have hown := (hid.uses _ (List.mem_of_getElem? ht) r a (.handling r a)).1
    refine h.start hid ht (fun _ => rfl) (fun _ => rfl) (by simp) hown ho.1 ho.2
      (others_start (.inr (.inl rfl))) ?_
    intro run hf
    exact start_requeue rfl hf
  | judgeError r a =>
    have hown := (hid.uses _ (List.mem_of_getElem? ht) r a (.handling r a)).1
    refine h.start hid ht (fun _ => rfl) (fun _ => rfl) (by simp) hown ho.1 ho.2
      (others_start (.inr (.inr (.inl rfl)))) ?_
    intro run hf
    exact start_error hf
  | fireConnect i f hf =>
    have hown := (hid.inflights _ (List.mem_of_getElem? hf)).1
    refine h.start hid ht (fun _ => rfl) (fun _ => rfl) (by simp) hown ho.1 ho.2
      (others_start (.inr (.inr (.inr rfl)))) ?_
    intro run hf
    exact start_requeue rfl hf
  | fireReady i f hf =>
    have hown := (hid.inflights _ (List.mem_of_getElem? hf)).1
    refine h.start hid ht (fun _ => rfl) (fun _ => rfl) (by simp) hown ho.1 ho.2
      (others_start (.inr (.inr (.inr rfl)))) ?_
    intro run hf
    exact start_requeue rfl hf
  | full w r l =>
    obtain ⟨run, hrun, -⟩ := h.run_of ht (r := r) (by simp [Thread.on])
    refine h.quietOn hid ht hrun (by simp [Thread.on]) (by onEq) rfl (by simp)
      (fun hf => ⟨fun _ => ?_, by simp [Thread.on]⟩)
    known hf
  | notPersisted w r p =>
    obtain ⟨run, hrun, -⟩ := h.run_of ht (r := r) (by simp [Thread.on])
    refine h.quietOn hid ht hrun (by simp [Thread.on]) (by onEq) rfl (by simp)
      (fun hf => ⟨fun _ => ?_, by simp [Thread.on]⟩)
    have h1 : processed r (evs ++ [.notPersisted r]) := .inr (by simp)
    have h2 : signalled r (evs ++ [.notPersisted r]) := .inr (by simp)
    known hf
  | rqCheck w r l run hrun =>
    refine h.quietOn hid ht hrun (by simp [Thread.on]) (by onEq) rfl
      (by split_ifs <;> simp) (fun hf => ⟨fun _ => ?_, by split_ifs <;> simp [Thread.on]⟩)
    split_ifs <;> known hf
  | rqCall w r l run hrun hm =>
    refine h.quietOn hid ht hrun (by simp [Thread.on]) (by onEq) rfl (by simp)
      (fun hf => ⟨fun _ => ?_, by simp [Thread.on]⟩)
    known hf
  | rqPanic r l run hrun hm =>
    obtain ⟨run', hrun', hf⟩ := h.run_of ht (r := r) (by simp [Thread.on])
    rw [hrun] at hrun'; cases hrun'
    simp [Fine, Good, hm] at hf
  | rqRead w r l run hrun =>
    refine h.quietOn hid ht hrun (by simp [Thread.on]) (by onEq) rfl (by simp)
      (fun hf => ⟨fun _ => ?_, by simp [Thread.on]⟩)
    known hf
  | rqTest w r l run hrun =>
    refine h.quietOn hid ht hrun (by simp [Thread.on]) (by onEq) rfl
      (by split_ifs <;> simp) (fun hf => ⟨fun _ => ?_, by split_ifs <;> simp [Thread.on]⟩)
    split_ifs with htr
    · known hf
    · obtain ⟨h1, h2, h3, h4, h5, h6⟩ := hf
      refine ⟨h1, h2, h3, h4, by omega, fun hj => ?_⟩
      rcases h6 hj with h6 | h6
      · exact h6
      · omega
  | rqNotLast w r =>
    obtain ⟨run, hrun, -⟩ := h.run_of ht (r := r) (by simp [Thread.on])
    refine h.quietOn hid ht hrun (by simp [Thread.on]) (by onEq) rfl (by simp)
      (fun hf => ⟨fun _ => ?_, by simp [Thread.on]⟩)
    known hf
  | clAgain w r run hrun hc =>
    obtain ⟨run', hrun', hf⟩ := h.run_of ht (r := r) (by simp [Thread.on])
    rw [hrun] at hrun'; cases hrun'
    simp [Fine, Good, hc] at hf
  | clCheck w r run hrun =>
    refine h.quietOn hid ht hrun (by simp [Thread.on]) (by onEq) rfl
      (by split_ifs <;> simp) (fun hf => ⟨fun _ => ?_, by split_ifs <;> simp [Thread.on]⟩)
    split_ifs <;> known hf
  | clGetPost w r run hrun hm =>
    refine h.quietOn hid ht hrun (by simp [Thread.on]) (by onEq) rfl (by simp)
      (fun hf => ⟨fun _ => ?_, by simp [Thread.on]⟩)
    exact hf
  | clCall w r run hrun hm =>
    refine h.quietOn hid ht hrun (by simp [Thread.on]) (by onEq) rfl (by simp)
      (fun hf => ⟨fun _ => ?_, by simp [Thread.on]⟩)
    exact ⟨hf.1, hf.2.1, hf.2.2.1, hf.2.2.2, rfl⟩
  | clNoInput w r p run hrun hm =>
    refine h.quietOn hid ht hrun (by simp [Thread.on]) (by onEq) rfl (by simp)
      (fun hf => ⟨fun _ => ?_, by simp [Thread.on]⟩)
    known hf
  | clPersist w r p =>
    obtain ⟨run, hrun, -⟩ := h.run_of ht (r := r) (by simp [Thread.on])
    refine h.quietOn hid ht hrun (by simp [Thread.on]) (by onEq) rfl (by simp)
      (fun hf => ⟨fun _ => ?_, by simp [Thread.on]⟩)
    known hf
  | clSignal w r p =>
    obtain ⟨run, hrun, -⟩ := h.run_of ht (r := r) (by simp [Thread.on])
    refine h.quietOn hid ht hrun (by simp [Thread.on]) (by onEq) rfl (by simp)
      (fun hf => ⟨fun _ => ?_, by simp [Thread.on]⟩)
    have h2 : signalled r (evs ++ [.ready r]) := .inl (by simp)
    known hf
  | clPost w r =>
    obtain ⟨run, hrun, -⟩ := h.run_of ht (r := r) (by simp [Thread.on])
    refine h.quietOn hid ht hrun (by simp [Thread.on]) (by onEq) rfl (by simp)
      (fun hf => ⟨fun _ => ?_, by simp [Thread.on]⟩)
    have h2 : processed r (evs ++ [.posted r]) := .inl (by simp)
    known hf
  | clNoPost w r =>
    obtain ⟨run, hrun, -⟩ := h.run_of ht (r := r) (by simp [Thread.on])
    refine h.quietOn hid ht hrun (by simp [Thread.on]) (by onEq) rfl (by simp)
      (fun hf => ⟨fun _ => ?_, by simp [Thread.on]⟩)
    known hf
  | clEvent w r =>
    obtain ⟨run, hrun, -⟩ := h.run_of ht (r := r) (by simp [Thread.on])
    refine h.quietOn hid ht hrun (by simp [Thread.on]) (by simp [Thread.on]) rfl (by simp)
      (fun hf => ⟨by simp [Thread.on], fun _ => ?_⟩)
    have hcl : run.closed = true := hf.2.2.1
    rw [hcl, if_pos rfl]
    known hf

theorem Tidy.write {m : Int} {own : Nat → Nat} {evs : List Event} {s : State} {t r : Nat} {y x : Thread}
    {f : Run → Run} {e : Event} (hid : Ids own evs s) (h : Tidy m evs s) (ht : s.threads[t]? = some y)
    (hw : Write s y r f x e) : Tidy m (evs ++ [e]) ((s.modRun r f).goto t x) := by
  cases hw with
  | running _ run hrun hr =>
    exact h.writeOn hid ht hrun (by simp [Thread.on]) (by simp [Thread.on]) rfl (by simp) (.inl ⟨rfl, rfl⟩)
      (fun hf => hf)
  | tries w _ l n =>
    obtain ⟨run, hrun, -⟩ := h.run_of ht (r := r) (by simp [Thread.on])
    refine h.writeOn hid ht hrun (by simp [Thread.on]) (by simp [Thread.on]) rfl (by simp) (.inl ⟨rfl, rfl⟩)
      (fun hf => ?_)
    obtain ⟨h1, h2, h3, ⟨h4, h5, h6⟩, h7⟩ := hf
    subst h7
    refine ⟨h1, h2, h3, by simp only; omega, h5, fun hj => ?_⟩
    rcases h6 hj with h6 | h6
    · exact .inl h6
    · exact .inr ⟨by simp only; omega, h6.2⟩
  | last w _ =>
    obtain ⟨run, hrun, -⟩ := h.run_of ht (r := r) (by simp [Thread.on])
    refine h.writeOn hid ht hrun (by simp [Thread.on]) (by simp [Thread.on]) rfl (by simp) (.inl ⟨rfl, rfl⟩)
      (fun hf => ?_)
    obtain ⟨h1, h2, h3, h4, h5, h6⟩ := hf
    exact ⟨h1, h2, h3, ⟨by simp only; omega, .inl (by simp), fun hj => ⟨(h6 hj).2, by simp⟩⟩, by simp⟩
  | setId w _ l a =>
    obtain ⟨run, hrun, hfy⟩ := h.run_of ht (r := r) (by simp [Thread.on])
    have hfresh := h.setId _ (List.mem_of_getElem? ht) w r l a rfl
    refine h.writeOn hid ht hrun (by simp [Thread.on]) (by simp [Thread.on]) rfl (by simp)
      (.inr ⟨hfy.2.2.1, hfy.2.2.1⟩) (fun hf => ?_)
    obtain ⟨h1, h2, h3, h4, h5⟩ := hf
    refine ⟨h1, h2, h3, h4, h5, ?_⟩
    intro p hp
    rcases List.mem_append.mp hp with hp | hp
    · exact hfresh p hp
    · simp at hp
  | closed w _ run hrun hc =>
    refine h.writeOn hid ht hrun (by simp [Thread.on]) (by simp [Thread.on]) rfl (by simp) (.inl ⟨rfl, rfl⟩)
      (fun hf => ?_)
    exact ⟨hf.1, hf.2.1, rfl, hf.2.2.2⟩
  | released w _ p run hrun hi =>
    exact h.writeOn hid ht hrun (by simp [Thread.on]) (by simp [Thread.on]) rfl (by simp) (.inl ⟨rfl, rfl⟩)
      (fun hf => hf)

/-- `Remove` of the current attempt of run `r`. -/
theorem Tidy.dropOn {m : Int} {own : Nat → Nat} {evs : List Event} {s : State} {t r : Nat}
    {y x : Thread} {run : Run} (hid : Ids own evs s) (h : Tidy m evs s) (ht : s.threads[t]? = some y)
    (hrun : s.runs[r]? = some run) (hmon : run.monitor = true)
    (hy : ∀ q, y.on q = (r == q)) (hx : ∀ q, x.on q = (r == q))
    (hx' : ∀ w q l a, x ≠ .requeue w q l (.setId a))
    (hnew : Fine m r run (evs ++ [.dropped run.attempt]) (.thread y) →
      Fine m r { run with monitor := false } (evs ++ [.dropped run.attempt]) (.thread x)) :
    Tidy m (evs ++ [.dropped run.attempt]) ((s.removeAttempt run.attempt).goto t x) := by
  obtain ⟨i, g, hm, hg, hgr⟩ := h.reg.mon r run hrun hmon
  have hrem : s.removeAttempt run.attempt = { s with
        mapping := Function.update s.mapping run.attempt none
        runs := s.runs.modify r fun r => { r with monitor := false }
        inflights := s.inflights.set i { g with connected := true, ready := true } } := by
    simp [State.removeAttempt, hm, hg, hgr]
  rw [hrem]
  have hother : ∀ q, q ≠ r → (s.runs.modify r fun r => { r with monitor := false })[q]? = s.runs[q]? :=
    fun q hq => by rw [List.getElem?_modify]; simp [Ne.symm hq]
  have hr' : (s.runs.modify r fun r => { r with monitor := false })[r]?
      = some { run with monitor := false } := by
    rw [List.getElem?_modify]; simp [hrun]
  have hinf : ∀ (j : Nat) k, s.inflights[j]? = some k →
      ∃ k', (s.inflights.set i { g with connected := true, ready := true })[j]? = some k' ∧ k'.run = k.run := by
    intro j k hk
    rw [List.getElem?_set]
    split_ifs with hij hlt
    · subst hij
      rw [hg] at hk
      cases hk
      exact ⟨_, rfl, rfl⟩
    · subst hij
      obtain ⟨hlt', -⟩ := List.getElem?_eq_some_iff.mp hk
      exact absurd hlt' hlt
    · exact ⟨k, hk, rfl⟩
  obtain ⟨run0, hrun0, hfine⟩ := h.run_of ht (r := r) (by simp [hy])
  rw [hrun] at hrun0
  cases hrun0
  refine h.advance hid ht (.inl hy) (fun q hq => by rw [hx] at hq; simpa using (beq_iff_eq.mp hq).symm)
    (extra := []) (by simp [State.goto]) (by simp) hother hr'
    (.inl ⟨rfl, fun _ => hnew (hfine.frame (neutral_bland rfl r run.attempt)), fun hc => by
      rw [hx] at hc; simp at hc⟩)
    (neutral_other (others_bland rfl r).1 (others_bland rfl r).2) h.calm ?_
    (fun w q l a hc => absurd hc (hx' w q l a)) (fun p b hc => by cases hc)
  constructor
  · intro a j haj
    simp only [State.goto] at haj ⊢
    by_cases ha : a = run.attempt
    · subst ha; simp at haj
    · rw [Function.update_of_ne ha] at haj
      obtain ⟨k, run1, h1, h2, h3, h4⟩ := h.reg.map a j haj
      have hkr : k.run ≠ r := by
        intro hc
        rw [hc, hrun] at h2
        cases h2
        exact ha h3.symm
      obtain ⟨k', h5, h6⟩ := hinf j k h1
      exact ⟨k', run1, h5, by rw [h6, hother _ hkr]; exact h2, h3, h4⟩
  · intro q run1 hq hmon1
    simp only [State.goto] at hq ⊢
    by_cases hqr : q = r
    · subst hqr
      rw [hr'] at hq
      cases hq
      simp at hmon1
    · rw [hother q hqr] at hq
      obtain ⟨j, k, h1, h2, h3⟩ := h.reg.mon q run1 hq hmon1
      obtain ⟨k', h5, h6⟩ := hinf j k h2
      refine ⟨j, k', ?_, h5, h6.trans h3⟩
      rw [Function.update_of_ne]
      · exact h1
      · intro hc
        have e1 := (hid.runs q run1 hq).1
        have e2 := (hid.runs r run hrun).1
        rw [hc, e2] at e1
        exact hqr e1.symm

theorem Tidy.enqueueOn {m : Int} {own : Nat → Nat} {evs : List Event} {s : State} {t r : Nat}
    {y : Thread} (hid : Ids own evs s) (h : Tidy m evs s) (ht : s.threads[t]? = some y)
    (hy : ∀ q, y.on q = (r == q))
    (hnew : ∀ run, Fine m r run (evs ++ [.queued r]) (.thread y) →
      Fine m r run (evs ++ [.queued r]) .queued) :
    Tidy m (evs ++ [.queued r]) ({ s with queue := s.queue ++ [r] }.goto t .done) := by
  obtain ⟨run, hrun, hfine⟩ := h.run_of ht (r := r) (by simp [hy])
  refine h.advance hid ht (x := .done) (.inl hy) (fun q hq => by simp [Thread.on] at hq)
    (extra := []) (by simp [State.goto]) (by simp) (fun _ _ => rfl) hrun
    (.inr ⟨rfl, rfl, hnew run (hfine.frame (neutral_bland rfl r run.attempt))⟩)
    (neutral_other (others_bland rfl r).1 (others_bland rfl r).2) h.calm ?_
    (fun w q l a hc => by cases hc) (fun p b hc => by cases hc)
  exact h.reg.congr rfl rfl rfl

/-- Everything mentions existing runs only. -/
structure Known (evs : List Event) (s : State) : Prop where
  inflights : ∀ f ∈ s.inflights, f.run < s.runs.length
  handling : ∀ r a, .handling r a ∈ s.threads → r < s.runs.length
  events : ∀ e ∈ evs, ∀ r a, e.about = some (r, a) → r < s.runs.length

theorem Known.weaken {evs : List Event} {s s' : State} {e : Event} (h : Known evs s)
    (h1 : s.runs.length ≤ s'.runs.length) (h2 : ∀ f ∈ s'.inflights, f.run < s.runs.length)
    (h3 : ∀ r a, .handling r a ∈ s'.threads → r < s.runs.length)
    (h4 : ∀ r a, e.about = some (r, a) → r < s.runs.length) : Known (evs ++ [e]) s' := by
  refine ⟨fun f hf => (h2 f hf).trans_le h1, fun r a hr => (h3 r a hr).trans_le h1, ?_⟩
  intro x hx r a hxa
  rcases List.mem_append.mp hx with hx | hx
  · exact (h.events x hx r a hxa).trans_le h1
  · rw [List.mem_singleton.mp hx] at hxa; exact (h4 r a hxa).trans_le h1

theorem Known.set {evs : List Event} {s : State} (h : Known evs s) {t : Nat} {x : Thread}
    (hx : ∀ r a, x ≠ .handling r a) :
    ∀ r a, .handling r a ∈ s.threads.set t x → r < s.runs.length := by
  intro r a hr
  rcases List.mem_or_eq_of_mem_set hr with hr | hr
  · exact h.handling r a hr
  · exact absurd hr.symm (hx r a)

theorem Known.snoc {evs : List Event} {s : State} (h : Known evs s) {x : Thread}
    (hx : ∀ r a, x = .handling r a → r < s.runs.length) :
    ∀ r a, .handling r a ∈ s.threads ++ [x] → r < s.runs.length := by
  intro r a hr
  rcases List.mem_append.mp hr with hr | hr
  · exact h.handling r a hr
  · exact hx r a (List.mem_singleton.mp hr).symm

theorem Known.token {evs : List Event} {s : State} (h : Known evs s) {i : Nat} {f g : Inflight}
    (hf : s.inflights[i]? = some f) (hg : g.run = f.run) :
    ∀ k ∈ s.inflights.set i g, k.run < s.runs.length := by
  intro k hk
  rcases List.mem_or_eq_of_mem_set hk with hk | hk
  · exact h.inflights k hk
  · rw [hk, hg]; exact h.inflights f (List.mem_of_getElem? hf)

theorem Known.drop {evs : List Event} {s : State} (h : Known evs s) {t a : Nat} {x : Thread}
    (hx : ∀ r a, x ≠ .handling r a) : Known (evs ++ [.dropped a]) ((s.removeAttempt a).goto t x) := by
  have hno : ∀ r b, (Event.dropped a).about = some (r, b) → r < s.runs.length :=
    fun r b hc => by cases hc
  unfold State.removeAttempt
  split
  · exact h.weaken le_rfl h.inflights (h.set hx) hno
  · split
    · exact h.weaken le_rfl h.inflights (h.set hx) hno
    · rename_i f hf
      exact h.weaken (by simp [State.goto]) (h.token hf rfl) (h.set hx) hno

theorem Known.step {m : Int} {evs : List Event} {s s' : State} {e : Event}
    (h : Known evs s) (hs : Step m s s' e) : Known (evs ++ [e]) s' := by
  cases hs with
  | submit =>
    exact h.weaken (by simp) h.inflights (h.snoc (fun _ _ hc => by cases hc)) (fun _ _ hc => by cases hc)
  | take k r hk =>
    exact h.weaken (by simp) h.inflights (h.snoc (fun _ _ hc => by cases hc)) (fun _ _ hc => by cases hc)
  | rejected a ha => exact h.weaken le_rfl h.inflights h.handling (fun _ _ hc => by cases hc)
  | resolved a i f ha hf =>
    have hlt := h.inflights f (List.mem_of_getElem? hf)
    exact h.weaken le_rfl (h.token hf rfl) (h.snoc (fun _ _ hc => by cases hc; exact hlt))
      (fun _ _ hc => by cases hc; exact hlt)
  | quiet t y x e ht hq =>
    refine h.weaken le_rfl h.inflights (h.set ?_) ?_
    · intro r a hc
      cases hc
      generalize hx : Thread.handling r a = x at hq
      cases hq <;> first | (cases hx; done) | (split at hx <;> cases hx; done)
    · intro r a he
      rcases hq.about he with hu | ⟨f, hf, rfl, -⟩
      · cases hu with
        | handling => exact h.handling r a (List.mem_of_getElem? ht)
        | setId w l => cases hq
        | rqRemove w l => cases hq
        | clRemove w => cases hq
      · exact h.inflights f hf
  | write t y r f x e ht hw =>
    refine h.weaken (by simp [State.modRun, State.goto]) h.inflights (h.set ?_) ?_
    · intro r a hc; subst hc; cases hw
    · intro r a hc; cases hw <;> cases hc
  | crash t y r e run ht hrun hmon hc =>
    refine h.weaken le_rfl h.inflights (h.set (by simp)) ?_
    intro q a he
    rcases hc with ⟨_, -, rfl⟩ | ⟨-, rfl⟩ <;> cases he
  | clPanic t y r run ht hrun hmon hc =>
    exact h.weaken le_rfl h.inflights (h.set (by simp)) (fun _ _ hc => by cases hc)
  | rqRemove t w r l a ht => exact h.drop (by simp)
  | clRemove t w r a ht => exact h.drop (by simp)
  | newId t w r l ht =>
    exact h.weaken le_rfl h.inflights (h.set (by simp)) (fun _ _ hc => by cases hc)
  | add t r ht => exact h.weaken le_rfl h.inflights (h.set (by simp)) (fun _ _ hc => by cases hc)
  | enqueue t w r l ht => exact h.weaken le_rfl h.inflights (h.set (by simp)) (fun _ _ hc => by cases hc)
  | register t r run ht hrun =>
    obtain ⟨hlt, -⟩ := List.getElem?_eq_some_iff.mp hrun
    refine h.weaken (by simp) ?_ ?_ (fun _ _ hc => by cases hc; exact hlt)
    · intro f hf
      rcases List.mem_append.mp hf with hf | hf
      · exact h.inflights f hf
      · rw [List.mem_singleton.mp hf]; exact hlt
    · intro q a hq
      rcases List.mem_append.mp hq with hq | hq
      · exact h.set (by simp) q a hq
      · simp at hq
  | connect t i f ht hf =>
    exact h.weaken le_rfl (h.token hf rfl) (h.set (by simp)) (fun _ _ hc => by cases hc)

theorem Reach.known {m : Int} {evs : List Event} {s : State} (h : Reach m evs s) : Known evs s := by
  induction h with
  | init => exact ⟨by simp, by simp, by simp⟩
  | step _ hs ih => exact ih.step (step_inv hs).1

/-- `GetRun` takes run `r` from the queue. -/
theorem Tidy.takeOn {m : Int} {evs : List Event} {s : State} (h : Tidy m evs s) {k r : Nat}
    (hk : s.queue[k]? = some r) :
    Tidy m (evs ++ [.taken r])
      { s with queue := s.queue.eraseIdx k, threads := s.threads ++ [.getting r] } := by
  obtain ⟨hlt, hget⟩ := List.getElem?_eq_some_iff.mp hk
  have hperm : (r :: s.queue.eraseIdx k).Perm s.queue := hget ▸ List.getElem_cons_eraseIdx_perm hlt
  have hcount : ∀ q, s.queue.count q = (s.queue.eraseIdx k).count q + if r = q then 1 else 0 := fun q => by
    rw [← hperm.count_eq, List.count_cons]; simp
  have hthr : ∀ q, (s.threads ++ [Thread.getting r]).countP (Thread.on q)
      = s.threads.countP (Thread.on q) + if r = q then 1 else 0 := fun q => by
    simp [List.countP_append, Thread.on, List.countP_cons]
  have hsame : ∀ q, (s.threads ++ [Thread.getting r]).countP (Thread.on q) + (s.queue.eraseIdx k).count q
      = s.threads.countP (Thread.on q) + s.queue.count q := fun q => by
    rw [hthr, hcount]; omega
  constructor
  · exact h.calm
  · intro q; rw [hsame]; exact h.occ q
  · intro z hz q hzq
    rcases List.mem_append.mp hz with hz | hz
    · obtain ⟨run, h1, h2⟩ := h.held z hz q hzq
      exact ⟨run, h1, h2.frame (neutral_bland rfl _ _)⟩
    · rw [List.mem_singleton.mp hz] at hzq ⊢
      obtain rfl : r = q := by simpa [Thread.on] using hzq
      obtain ⟨run, h1, h2⟩ := h.queued r (List.mem_of_getElem? hk)
      exact ⟨run, h1, h2.frame (neutral_bland rfl _ _)⟩
  · intro q hq
    obtain ⟨run, h1, h2⟩ := h.queued q (List.mem_of_mem_eraseIdx hq)
    exact ⟨run, h1, h2.frame (neutral_bland rfl _ _)⟩
  · intro q run hq hz
    rw [hsame] at hz
    exact (h.idle q run hq hz).frame (neutral_bland rfl _ _)
  · exact h.reg.congr rfl rfl rfl
  · intro z hz w q l a hza p hp
    rcases List.mem_append.mp hp with hp | hp
    · rcases List.mem_append.mp hz with hz | hz
      · exact h.setId z hz w q l a hza p hp
      · rw [List.mem_singleton.mp hz] at hza; cases hza
    · simp at hp

/-- A new run. -/
theorem Tidy.submitOn {m : Int} {own : Nat → Nat} {evs : List Event} {s : State}
    (hid : Ids own evs s) (hkn : Known evs s) (h : Tidy m evs s) :
    Tidy m (evs ++ [.submitted s.runs.length]) { s with
        lastId := s.lastId + 1
        runs := s.runs ++ [{ tries := m, attempt := s.lastId + 1 }]
        threads := s.threads ++ [.adding s.runs.length] } := by
  have hold : ∀ (q : Nat) run, s.runs[q]? = some run →
      (s.runs ++ [{ tries := m, attempt := s.lastId + 1 }])[q]? = some run := fun q run hq => by
    obtain ⟨hlt, -⟩ := List.getElem?_eq_some_iff.mp hq
    rw [List.getElem?_append_left hlt]; exact hq
  have hnew : (s.runs ++ [({ tries := m, attempt := s.lastId + 1 } : Run)])[s.runs.length]?
      = some { tries := m, attempt := s.lastId + 1 } := by simp
  have hnot : s.runs[s.runs.length]? = none := by simp
  have h0 : s.threads.countP (Thread.on s.runs.length) = 0 := by
    rw [List.countP_eq_zero]
    intro z hz hzq
    obtain ⟨run, h1, -⟩ := h.held z hz _ hzq
    rw [hnot] at h1; cases h1
  have h1 : s.queue.count s.runs.length = 0 := by
    rw [List.count_eq_zero]
    intro hq
    obtain ⟨run, h1, -⟩ := h.queued _ hq
    rw [hnot] at h1; cases h1
  have hthr : ∀ q, (s.threads ++ [Thread.adding s.runs.length]).countP (Thread.on q)
      = s.threads.countP (Thread.on q) + if s.runs.length = q then 1 else 0 := fun q => by
    simp [List.countP_append, Thread.on, List.countP_cons]
  have hno : ∀ e ∈ evs ++ [Event.submitted s.runs.length], ∀ a, e.about ≠ some (s.runs.length, a) := by
    intro e he a hc
    rcases List.mem_append.mp he with he | he
    · have := hkn.events e he _ a hc; omega
    · rw [List.mem_singleton.mp he] at hc; cases hc
  constructor
  · exact h.calm
  · intro q
    simp only
    rw [hthr]
    split_ifs with hq
    · subst hq; rw [h0, h1]
    · exact h.occ q
  · intro z hz q hzq
    rcases List.mem_append.mp hz with hz | hz
    · obtain ⟨run, h1, h2⟩ := h.held z hz q hzq
      exact ⟨run, hold q run h1, h2.frame (neutral_bland rfl _ _)⟩
    · rw [List.mem_singleton.mp hz] at hzq ⊢
      obtain rfl : s.runs.length = q := by simpa [Thread.on] using hzq
      refine ⟨_, hnew, rfl, rfl, ?_, ?_, ?_⟩
      · intro p hp
        rcases List.mem_append.mp hp with hp | hp
        · have := (hid.events _ hp p (s.lastId + 1) rfl).2; omega
        · simp at hp
      · rintro ⟨a, ha⟩
        exact hno _ ha a rfl
      · have hH : (evs ++ [Event.submitted s.runs.length]).countP (Event.hands s.runs.length) = 0 := by
          rw [List.countP_eq_zero]
          intro e he hh
          cases e <;> simp [Event.hands] at hh
          rename_i q a
          subst hh
          exact hno _ he a rfl
        refine ⟨by rw [hH]; simp, .inr hH, ?_⟩
        rintro ⟨a, ha⟩
        exact absurd rfl (hno _ ha a)
  · intro q hq
    obtain ⟨run, h1, h2⟩ := h.queued q hq
    exact ⟨run, hold q run h1, h2.frame (neutral_bland rfl _ _)⟩
  · intro q run hq hz
    simp only at hz
    rw [hthr] at hz
    have hqn : s.runs.length ≠ q := by
      intro hc
      rw [if_pos hc] at hz; omega
    rw [if_neg hqn] at hz
    have hq' : s.runs[q]? = some run := by
      simp only at hq
      obtain ⟨hlt, -⟩ := List.getElem?_eq_some_iff.mp hq
      rw [List.getElem?_append_left (by simp at hlt; omega)] at hq
      exact hq
    exact (h.idle q run hq' hz).frame (neutral_bland rfl _ _)
  · constructor
    · intro a i ha
      obtain ⟨f, run, h1, h2, h3⟩ := h.reg.map a i ha
      exact ⟨f, run, h1, hold _ _ h2, h3⟩
    · intro q run hq hmon
      have hq' : s.runs[q]? = some run := by
        simp only at hq
        by_cases hlt : q < s.runs.length
        · rw [List.getElem?_append_left hlt] at hq; exact hq
        · rw [List.getElem?_append_right (by omega)] at hq
          obtain ⟨h5, h6⟩ := List.getElem?_eq_some_iff.mp hq
          simp at h6
          rw [← h6] at hmon
          simp at hmon
      exact h.reg.mon q run hq' hmon
  · intro z hz w q l a hza p hp
    rcases List.mem_append.mp hp with hp | hp
    · rcases List.mem_append.mp hz with hz | hz
      · exact h.setId z hz w q l a hza p hp
      · rw [List.mem_singleton.mp hz] at hza; cases hza
    · simp at hp

/-- A run is handed to a runner. -/
theorem Tidy.registerOn {m : Int} {own : Nat → Nat} {evs : List Event} {s : State}
    (hid : Ids own evs s) (h : Tidy m evs s) {t r : Nat} {run : Run}
    (ht : s.threads[t]? = some (.registering r)) (hrun : s.runs[r]? = some run) :
    Tidy m (evs ++ [.handed r run.attempt]) { s with
            inflights := s.inflights ++ [{ run := r, attempt := run.attempt }]
            runs := s.runs.modify r fun x => { x with monitor := true }
            mapping := Function.update s.mapping run.attempt (some s.inflights.length)
            threads := s.threads.set t Thread.done ++ [Thread.watchConnect s.inflights.length] } := by
  obtain ⟨run0, hrun0, hmon, hcl, -, hup, hw1, hw2, hw3⟩ := h.run_of ht (r := r) (by simp [Thread.on])
  rw [hrun] at hrun0
  cases hrun0
  have hown := (hid.runs r run hrun).1
  have hother : ∀ q, q ≠ r → (s.runs.modify r fun x => { x with monitor := true })[q]? = s.runs[q]? :=
    fun q hq => by rw [List.getElem?_modify]; simp [Ne.symm hq]
  have hr' : (s.runs.modify r fun x => { x with monitor := true })[r]?
      = some { run with monitor := true } := by
    rw [List.getElem?_modify]; simp [hrun]
  have hH : (evs ++ [Event.handed r run.attempt]).countP (Event.hands r)
      = evs.countP (Event.hands r) + 1 := by
    simp [List.countP_append, Event.hands, List.countP_cons]
  refine h.advance hid ht (x := .done) (run' := { run with monitor := true })
    (.inl (fun _ => rfl)) (fun q hq => by simp [Thread.on] at hq)
    rfl (by simp [Thread.on]) hother hr' (.inl ⟨rfl, fun hc => by simp [Thread.on] at hc, fun _ => ?_⟩)
    ?_ h.calm ?_ (fun w q l a hc => by cases hc)
    (fun p b hc => by cases hc; exact ⟨hown, fun _ => rfl, _, rfl⟩)
  · rw [if_neg (by simp [hcl])]
    refine ⟨rfl, hcl, ?_, ?_, ?_, ?_⟩
    · rintro ⟨a, ha⟩
      rcases List.mem_append.mp ha with ha | ha
      · exact hup ⟨a, ha⟩
      · simp at ha
    · rw [hH]; push_cast; omega
    · rw [hH]; push_cast
      rcases hw2 with hw2 | hw2 <;> omega
    · intro hj
      have hj' : errorSeen r evs := by
        obtain ⟨b, hb⟩ := hj
        rcases List.mem_append.mp hb with hb | hb
        · exact ⟨b, hb⟩
        · simp at hb
      obtain ⟨h5, h6⟩ := hw3 hj'
      refine .inr ⟨h6, ?_⟩
      rw [since_snoc rfl, List.countP_append, h5]
      split_ifs <;> simp [List.countP_cons]
      split_ifs <;> simp
  · intro q a hq ha
    refine ⟨?_, rfl, by simp, ?_⟩
    · simp [Event.hands, Ne.symm hq]
    · intro p hc
      cases hc
      exact hq (ha.symm.trans hown)
  · have hnone : s.mapping run.attempt = none := by
      cases hm : s.mapping run.attempt with
      | none => rfl
      | some i =>
        obtain ⟨g, run1, h1, h2, h3, h4⟩ := h.reg.map _ _ hm
        have := (hid.runs _ _ h2).1
        rw [h3, hown] at this
        rw [← this, hrun] at h2
        cases h2
        rw [hmon] at h4
        cases h4
    constructor
    · intro a i ha
      simp only at ha ⊢
      by_cases hc : a = run.attempt
      · subst hc
        simp at ha
        subst ha
        exact ⟨{ run := r, attempt := run.attempt }, { run with monitor := true }, by simp, hr', rfl, rfl⟩
      · rw [Function.update_of_ne hc] at ha
        obtain ⟨g, run1, h1, h2, h3, h4⟩ := h.reg.map a i ha
        obtain ⟨hlt, -⟩ := List.getElem?_eq_some_iff.mp h1
        refine ⟨g, run1, by rw [List.getElem?_append_left hlt]; exact h1, ?_, h3, h4⟩
        rw [hother]
        · exact h2
        · intro hgr
          rw [hgr, hrun] at h2
          cases h2
          exact hc h3.symm
    · intro q run1 hq hm1
      simp only at hq ⊢
      by_cases hqr : q = r
      · subst hqr
        rw [hr'] at hq
        cases hq
        exact ⟨s.inflights.length, _, by simp, by simp; rfl, rfl⟩
      · rw [hother q hqr] at hq
        obtain ⟨i, g, h1, h2, h3⟩ := h.reg.mon q run1 hq hm1
        obtain ⟨hlt, -⟩ := List.getElem?_eq_some_iff.mp h2
        refine ⟨i, g, ?_, by rw [List.getElem?_append_left hlt]; exact h2, h3⟩
        rw [Function.update_of_ne]
        · exact h1
        · intro hc
          rw [hc, hnone] at h1
          cases h1

theorem map_run_set {l : List Inflight} {i : Nat} {f g : Inflight} (hf : l[i]? = some f)
    (hg : g.run = f.run) : (l.set i g).map (·.run) = l.map (·.run) := by
  apply List.ext_getElem?
  intro j
  rw [List.getElem?_map, List.getElem?_map, List.getElem?_set]
  split_ifs with h1 h2
  · subst h1; rw [hf]; simp [hg]
  · subst h1
    obtain ⟨h3, -⟩ := List.getElem?_eq_some_iff.mp hf
    exact absurd h3 h2
  · rfl

theorem Tidy.step {m : Int} {own : Nat → Nat} {evs : List Event} {s s' : State} {e : Event}
    (hid : Ids own evs s) (hkn : Known evs s) (h : Tidy m evs s) (hs : Step m s s' e) (ho : Orderly s e) :
    Tidy m (evs ++ [e]) s' := by
  cases hs with
  | submit => exact h.submitOn hid hkn
  | take k r hk => exact h.takeOn hk
  | rejected a ha =>
    exact h.offStage (extra := []) (.inl (by simp)) (by simp) ⟨rfl, rfl, h.calm, rfl, rfl⟩
      (neutral_bland rfl)
  | resolved a i f ha hf =>
    refine h.offStage (extra := [.handling f.run a]) (.inl rfl) (by simp [Thread.on])
      ⟨rfl, rfl, h.calm, rfl, ?_⟩ (neutral_bland rfl)
    exact map_run_set hf rfl
  | quiet t y x e ht hq => exact h.quiet hid ht hq ho
  | write t y r f x e ht hw => exact h.write hid ht hw
  | crash t y r e run ht hrun hmon hc =>
    have hy : y.on r = true := by
      rcases hc with ⟨_, rfl, -⟩ | ⟨rfl | rfl, -⟩ <;> simp [Thread.on]
    obtain ⟨run', hrun', hf⟩ := h.run_of ht hy
    rw [hrun] at hrun'; cases hrun'
    rcases hc with ⟨_, rfl, -⟩ | ⟨rfl | rfl, -⟩ <;> simp [Fine, Good, hmon] at hf
  | clPanic t y r run ht hrun hmon hc =>
    have hy : y.on r = true := by
      rcases hc with rfl | rfl <;> simp [Thread.on]
    obtain ⟨run', hrun', hf⟩ := h.run_of ht hy
    rw [hrun] at hrun'; cases hrun'
    rcases hc with rfl | rfl <;> simp [Fine, Good, hmon] at hf
  | rqRemove t w r l a ht =>
    obtain ⟨run, hrun, hf⟩ := h.run_of ht (r := r) (by simp [Thread.on])
    obtain rfl : a = run.attempt := hf.2.2.2.2
    refine h.dropOn hid ht hrun hf.2.2.1 (fun _ => rfl) (fun _ => rfl) (by simp) ?_
    intro hf
    exact ⟨hf.1, hf.2.1, rfl, hf.2.2.2.1⟩
  | clRemove t w r a ht =>
    obtain ⟨run, hrun, hf⟩ := h.run_of ht (r := r) (by simp [Thread.on])
    obtain rfl : a = run.attempt := hf.2.2.2.2
    refine h.dropOn hid ht hrun hf.2.2.2.1 (fun _ => rfl) (fun _ => rfl) (by simp) ?_
    intro hf
    exact ⟨hf.1, hf.2.1, hf.2.2.1, rfl, fun _ => rfl⟩
  | newId t w r l ht =>
    obtain ⟨run, hrun, -⟩ := h.run_of ht (r := r) (by simp [Thread.on])
    refine h.onStep hid ht hrun (f := id) (x := .requeue w r l (.setId (s.lastId + 1)))
      (fun _ => rfl) (by onEq) ⟨rfl, modify_id.symm, rfl, h.calm, rfl, rfl⟩
      (.inl ⟨rfl, rfl⟩) (others_bland rfl r) ?_ ?_
    · intro w' q l' a hc p hp
      cases hc
      rcases List.mem_append.mp hp with hp | hp
      · have := (hid.events _ hp p (s.lastId + 1) rfl).2; omega
      · simp at hp
    · intro hf
      have hf' := hf.frame (neutral_bland (e := .tau) rfl r run.attempt)
      exact ⟨fun _ => hf', by simp [Thread.on]⟩
  | add t r ht =>
    exact h.enqueueOn hid ht (fun _ => rfl) (fun run hf => hf)
  | enqueue t w r l ht =>
    refine h.enqueueOn hid ht (fun _ => rfl) (fun run hf => ?_)
    exact ⟨hf.2.2.1, hf.1, hf.2.2.2.2.2, hf.2.1, hf.2.2.2.1⟩
  | register t r run ht hrun => exact h.registerOn hid ht hrun
  | connect t i f ht hf =>
    exact h.offStage (extra := []) (.inr ⟨t, _, .watchReady i, ht, by simp [State.goto], fun _ => rfl,
      fun _ => rfl⟩) (by simp) ⟨rfl, rfl, h.calm, rfl, map_run_set hf rfl⟩ (neutral_bland rfl)

theorem Tidy.init (m : Int) : Tidy m [] {} :=
  ⟨rfl, by simp, by simp, by simp, by simp, ⟨by simp, by simp⟩, by simp⟩

theorem ReachOrderly.tidy {m : Int} {evs : List Event} {s : State} (h : ReachOrderly m evs s) :
    Tidy m evs s := by
  induction h with
  | init => exact Tidy.init m
  | step hr hs ho ih =>
    obtain ⟨own, hid⟩ := hr.reach.ids
    exact ih.step hid hr.reach.known (step_inv hs).1 ho

end Quark.Lifecycle
