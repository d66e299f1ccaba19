import Verif.Lifecycle.Model
import Mathlib.Tactic.SplitIfs
import Mathlib.Data.List.Basic

/-!
# C26, C28: finalization happens at most once, and the gauge
-/

namespace Quark.Lifecycle

/-! ## Lists of goroutines -/

theorem countP_goto {f : Thread → Bool} {l : List Thread} {t : Nat} {x y : Thread}
    (h : l[t]? = some y) :
    (l.set t x).countP f + (if f y then 1 else 0) = l.countP f + (if f x then 1 else 0) := by
  obtain ⟨hlt, rfl⟩ := List.getElem?_eq_some_iff.mp h
  rw [List.countP_set hlt]
  have : f l[t] = true → 0 < l.countP f := fun hf =>
    List.countP_pos_iff.mpr ⟨_, List.getElem_mem hlt, hf⟩
  by_cases h1 : f l[t] = true
  · have := this h1
    simp only [h1, if_true]; omega
  · simp only [h1, if_false, Bool.false_eq_true]; omega

/-- Whether a run is closed. -/
def State.isClosed (s : State) (r : Nat) : Bool := (s.runs[r]?.map (·.closed)).getD false

theorem map_modify {α : Type} {l : List Run} {r : Nat} {f : Run → Run} {g : Run → α}
    (hf : ∀ x, g (f x) = g x) : (l.modify r f).map g = l.map g := by
  apply List.ext_getElem?
  intro q
  rw [List.getElem?_map, List.getElem?_map, List.getElem?_modify]
  split
  · cases l[q]? <;> simp [hf]
  · simp

theorem isClosed_congr {s s' : State} (h : s'.runs.map (·.closed) = s.runs.map (·.closed)) (r : Nat) :
    s'.isClosed r = s.isClosed r := by
  unfold State.isClosed
  rw [← List.getElem?_map, ← List.getElem?_map, h]

theorem map_removeAttempt {α : Type} (s : State) (a : Nat) {g : Run → α}
    (hg : ∀ x : Run, g { x with monitor := false } = g x) :
    (s.removeAttempt a).runs.map g = s.runs.map g := by
  unfold State.removeAttempt
  split
  · rfl
  · split
    · rfl
    · exact map_modify hg

theorem threads_removeAttempt (s : State) (a : Nat) : (s.removeAttempt a).threads = s.threads := by
  unfold State.removeAttempt
  split
  · rfl
  · split <;> rfl

/-! ## The things `Close` does once -/

inductive Shot where
  | released | ready | posted | removed

def Shot.event : Shot → Nat → Event
  | .released => .released
  | .ready => .ready
  | .posted => .posted
  | .removed => .removed

/-- Whether a goroutine at this point of `Close` may still do it. -/
def Shot.pending : Shot → Cl → Bool
  | _, .swap => false
  | _, .check | _, .getPost | _, .callRemove | _, .remove _ | _, .release _ => true
  | .released, _ => false
  | _, .persist _ | _, .signal _ => true
  | .ready, _ => false
  | _, .post _ => true
  | .posted, _ => false
  | .removed, .event => true

def Shot.holds (k : Shot) (r : Nat) : Thread → Bool
  | .close _ q pc => q = r && k.pending pc
  | _ => false

/-- A goroutine that closed a run and has not reported it yet. -/
def inClose : Thread → Bool
  | .close _ _ .swap => false
  | .close _ _ _ => true
  | _ => false

def Event.isSubmitted : Event → Bool
  | .submitted _ => true
  | _ => false

def Event.isRemoved : Event → Bool
  | .removed _ => true
  | _ => false

structure Once (evs : List Event) (s : State) : Prop where
  shot : ∀ (k : Shot) r, s.threads.countP (k.holds r) + evs.count (k.event r) ≤
    if s.isClosed r then 1 else 0
  submitted : evs.countP Event.isSubmitted = s.runs.length
  gone : s.threads.countP inClose + evs.countP Event.isRemoved = s.runs.countP (·.closed)
  removed : ∀ r, s.threads.countP (Shot.removed.holds r) + evs.count (.removed r) =
    if s.isClosed r then 1 else 0

/-- A step that closes no run. -/
theorem Once.frame {evs : List Event} {s s' : State} (h : Once evs s) {t : Nat} {x y : Thread}
    {extra : List Thread} {e : Event} (ht : s.threads[t]? = some y)
    (hthreads : s'.threads = s.threads.set t x ++ extra)
    (hextra : ∀ (k : Shot) r, extra.countP (k.holds r) = 0)
    (hinc : extra.countP inClose = 0)
    (hmap : s'.runs.map (·.closed) = s.runs.map (·.closed))
    (hbal : ∀ (k : Shot) r, (if k.holds r x then 1 else 0) + [e].count (k.event r) ≤
      if k.holds r y then 1 else 0)
    (hrem : ∀ r, (if Shot.removed.holds r x then 1 else 0) + [e].count (.removed r) =
      if Shot.removed.holds r y then 1 else 0)
    (hcl : (if inClose x then 1 else 0) + [e].countP Event.isRemoved = if inClose y then 1 else 0)
    (hsub : e.isSubmitted = false) : Once (evs ++ [e]) s' := by
  have hclosed := isClosed_congr hmap
  have hlen : s'.runs.length = s.runs.length := by simpa using congrArg List.length hmap
  have hcnt : s'.runs.countP (·.closed) = s.runs.countP (·.closed) := by
    have := congrArg (List.countP id) hmap
    rwa [List.countP_map, List.countP_map] at this
  constructor
  · intro k r
    have h1 := h.shot k r
    have h2 := countP_goto (f := k.holds r) (x := x) ht
    have h3 := hbal k r
    rw [hthreads, List.countP_append, List.count_append, hextra, hclosed]
    omega
  · have h1 := h.submitted
    rw [List.countP_append, hlen]
    simp [hsub]
    omega
  · have h1 := h.gone
    have h2 := countP_goto (f := inClose) (x := x) ht
    rw [hthreads, List.countP_append, List.countP_append, hinc, hcnt]
    omega
  · intro r
    have h1 := h.removed r
    have h2 := countP_goto (f := Shot.removed.holds r) (x := x) ht
    have h3 := hrem r
    rw [hthreads, List.countP_append, List.count_append, hextra, hclosed]
    omega

/-- A step that only starts goroutines. -/
theorem Once.spawn {evs : List Event} {s s' : State} (h : Once evs s)
    {extra : List Thread} {e : Event}
    (hthreads : s'.threads = s.threads ++ extra)
    (hextra : ∀ (k : Shot) r, extra.countP (k.holds r) = 0)
    (hinc : extra.countP inClose = 0)
    (hmap : s'.runs.map (·.closed) = s.runs.map (·.closed))
    (he : ∀ (k : Shot) r, [e].count (k.event r) = 0)
    (her : e.isRemoved = false) (hsub : e.isSubmitted = false) : Once (evs ++ [e]) s' := by
  have hclosed := isClosed_congr hmap
  have hlen : s'.runs.length = s.runs.length := by simpa using congrArg List.length hmap
  have hcnt : s'.runs.countP (·.closed) = s.runs.countP (·.closed) := by
    have := congrArg (List.countP id) hmap
    rwa [List.countP_map, List.countP_map] at this
  constructor
  · intro k r
    have h1 := h.shot k r
    rw [hthreads, List.countP_append, List.count_append, hextra, hclosed, he]
    omega
  · have h1 := h.submitted
    rw [List.countP_append, hlen]
    simp [hsub]
    omega
  · have h1 := h.gone
    rw [hthreads, List.countP_append, List.countP_append, hinc, hcnt]
    simp [her]
    omega
  · intro r
    have h1 := h.removed r
    have h2 := he .removed r
    simp only [Shot.event] at h2
    rw [hthreads, List.countP_append, List.count_append, hextra, hclosed, h2]
    omega

macro "bal" : tactic => `(tactic| (intro k q; cases k <;>
  simp [Shot.holds, Shot.pending, Shot.event, List.count_cons] <;> (try split) <;> simp_all))

macro "balRemoved" : tactic => `(tactic| (intro q
                                          simp [Shot.holds, Shot.pending, List.count_cons]
                                          try split
                                          all_goals simp_all))

theorem Once.requeue {evs : List Event} {s : State} (h : Once evs s) {t : Nat} {w : Bool} {r : Nat}
    {last : Bool} {pc : Rq} (ht : s.threads[t]? = some (.requeue w r last pc)) (run : Run) :
    Once (evs ++ [(stepRequeue s t w r last run pc).2]) (stepRequeue s t w r last run pc).1 := by
  cases pc <;> simp only [stepRequeue]
  case check =>
    exact h.frame ht (extra := []) (by simp [State.goto]; rfl) (by simp) (by simp) rfl (by bal) (by balRemoved) (by simp [inClose, Event.isRemoved]) rfl
  case callRemove =>
    split_ifs
    · exact h.frame ht (extra := []) (by simp [State.goto]; rfl) (by simp) (by simp) rfl (by bal) (by balRemoved) (by simp [inClose, Event.isRemoved]) rfl
    · unfold nilPanic
      split_ifs
      · exact h.frame ht (extra := []) (by simp [State.goto]; rfl) (by simp) (by simp) rfl (by bal) (by balRemoved) (by simp [inClose, Event.isRemoved]) rfl
      · exact h.frame ht (extra := []) (by simp [State.goto]; rfl) (by simp) (by simp) rfl (by bal) (by balRemoved) (by simp [inClose, Event.isRemoved]) rfl
  case remove a =>
    exact h.frame ht (extra := []) (by simp [State.goto, threads_removeAttempt]; rfl) (by simp) (by simp)
      (map_removeAttempt s a fun _ => rfl) (by bal) (by balRemoved) (by simp [inClose, Event.isRemoved]) rfl
  case readTries =>
    exact h.frame ht (extra := []) (by simp [State.goto]; rfl) (by simp) (by simp) rfl (by bal) (by balRemoved) (by simp [inClose, Event.isRemoved]) rfl
  case writeTries n =>
    exact h.frame ht (extra := []) (by simp [State.goto, State.modRun]; rfl) (by simp) (by simp)
      (map_modify fun _ => rfl) (by bal) (by balRemoved) (by simp [inClose, Event.isRemoved]) rfl
  case test =>
    refine h.frame ht (extra := []) (by simp [State.goto]; rfl) (by simp) (by simp) rfl ?_ ?_
      (by split_ifs <;> simp_all [inClose, Event.isRemoved]) rfl <;> split_ifs
    · bal
    · bal
    · balRemoved
    · balRemoved
  case setLast =>
    split_ifs
    · exact h.frame ht (extra := []) (by simp [State.goto, State.modRun]; rfl) (by simp) (by simp)
        (map_modify fun _ => rfl) (by bal) (by balRemoved) (by simp [inClose, Event.isRemoved]) rfl
    · exact h.frame ht (extra := []) (by simp [State.goto]; rfl) (by simp) (by simp) rfl (by bal) (by balRemoved) (by simp [inClose, Event.isRemoved]) rfl
  case newId =>
    exact h.frame ht (extra := []) (by simp [State.goto]; rfl) (by simp) (by simp) rfl (by bal) (by balRemoved) (by simp [inClose, Event.isRemoved]) rfl
  case setId a =>
    exact h.frame ht (extra := []) (by simp [State.goto, State.modRun]; rfl) (by simp) (by simp)
      (map_modify fun _ => rfl) (by bal) (by balRemoved) (by simp [inClose, Event.isRemoved]) rfl
  case enqueue =>
    exact h.frame ht (extra := []) (by simp [State.goto]; rfl) (by simp) (by simp) rfl (by bal) (by balRemoved) (by simp [inClose, Event.isRemoved]) rfl

theorem Once.close {evs : List Event} {s : State} (h : Once evs s) {t : Nat} {w : Bool} {r : Nat}
    {pc : Cl} (ht : s.threads[t]? = some (.close w r pc)) {run : Run} (hrun : s.runs[r]? = some run) :
    Once (evs ++ [(stepClose s t w r run pc).2]) (stepClose s t w r run pc).1 := by
  cases pc <;> simp only [stepClose]
  case swap =>
    split_ifs with hc
    · exact h.frame ht (extra := []) (by simp [State.goto]; rfl) (by simp) (by simp) rfl (by bal) (by balRemoved) (by simp [inClose, Event.isRemoved]) rfl
    · have hcl : s.isClosed r = false := by simp [State.isClosed, hrun]; simpa using hc
      have hcl' : ∀ q, ((s.modRun r fun x => { x with closed := true }).goto t (.close w r .check)).isClosed q
          = if q = r then true else s.isClosed q := by
        intro q
        simp only [State.isClosed, State.goto, State.modRun, List.getElem?_modify]
        split_ifs with h1 h2 h2
        · subst h1; simp [hrun]
        · exact absurd h1.symm h2
        · exact absurd h2.symm h1
        · simp
      constructor
      · intro k q
        have h1 := h.shot k q
        have h2 := countP_goto (f := k.holds q) (x := .close w r .check) ht
        have h3 : [Event.closed r].count (k.event q) = 0 := by cases k <;> simp [Shot.event]
        have h4 : k.holds q (.close w r .swap) = false := by cases k <;> simp [Shot.holds, Shot.pending]
        have h5 : k.holds q (.close w r .check) = decide (r = q) := by
          cases k <;> simp [Shot.holds, Shot.pending]
        rw [hcl', List.count_append, h3]
        simp only [State.goto, State.modRun]
        rw [h4, h5] at h2
        by_cases hq : q = r
        · subst hq
          rw [hcl] at h1
          simp only [Bool.false_eq_true, if_false, decide_true, if_true] at h1 h2 ⊢
          omega
        · simp only [hq, Ne.symm hq, Bool.false_eq_true, if_false, decide_false] at h1 h2 ⊢
          omega
      · have h1 := h.submitted
        simp [State.goto, State.modRun, Event.isSubmitted, h1]
      · have h1 := h.gone
        have h2 := countP_goto (f := inClose) (x := .close w r .check) ht
        have h3 : (s.runs.modify r fun x => { x with closed := true }).countP (·.closed)
            = s.runs.countP (·.closed) + 1 := by
          obtain ⟨hlt, hget⟩ := List.getElem?_eq_some_iff.mp hrun
          have hm : (s.runs.modify r fun x => { x with closed := true })
              = s.runs.set r { run with closed := true } := by
            apply List.ext_getElem?
            intro q
            rw [List.getElem?_modify, List.getElem?_set]
            split_ifs with h5
            · subst h5; simp [hrun]
            · simp
          rw [hm, List.countP_set hlt, hget]
          simp [hc]
        simp only [inClose, if_true, if_false, Bool.false_eq_true] at h2
        simp only [State.goto, State.modRun, h3]
        simp [Event.isRemoved]
        omega
      · intro q
        have h1 := h.removed q
        have h2 := countP_goto (f := Shot.removed.holds q) (x := .close w r .check) ht
        have h4 : Shot.removed.holds q (.close w r .swap) = false := by simp [Shot.holds, Shot.pending]
        have h5 : Shot.removed.holds q (.close w r .check) = decide (r = q) := by
          simp [Shot.holds, Shot.pending]
        have h3 : [Event.closed r].count (.removed q) = 0 := by simp
        rw [hcl', List.count_append, h3]
        simp only [State.goto, State.modRun]
        rw [h4, h5] at h2
        by_cases hq : q = r
        · subst hq
          rw [hcl] at h1
          simp only [Bool.false_eq_true, if_false, decide_true, if_true] at h1 h2 ⊢
          omega
        · simp only [hq, Ne.symm hq, Bool.false_eq_true, if_false, decide_false] at h1 h2 ⊢
          omega
  case check =>
    refine h.frame ht (extra := []) (by simp [State.goto]; rfl) (by simp) (by simp) rfl ?_ ?_
      (by split_ifs <;> simp_all [inClose, Event.isRemoved]) rfl <;> split_ifs
    · bal
    · bal
    · balRemoved
    · balRemoved
  case getPost =>
    split_ifs
    · exact h.frame ht (extra := []) (by simp [State.goto]; rfl) (by simp) (by simp) rfl (by bal) (by balRemoved) (by simp [inClose, Event.isRemoved]) rfl
    · exact h.frame ht (extra := []) (by simp [State.goto]; rfl) (by simp) (by simp) rfl (by bal) (by balRemoved) (by simp [inClose, Event.isRemoved]) rfl
  case callRemove =>
    split_ifs
    · exact h.frame ht (extra := []) (by simp [State.goto]; rfl) (by simp) (by simp) rfl (by bal) (by balRemoved) (by simp [inClose, Event.isRemoved]) rfl
    · exact h.frame ht (extra := []) (by simp [State.goto]; rfl) (by simp) (by simp) rfl (by bal) (by balRemoved) (by simp [inClose, Event.isRemoved]) rfl
  case remove a =>
    exact h.frame ht (extra := []) (by simp [State.goto, threads_removeAttempt]; rfl) (by simp) (by simp)
      (map_removeAttempt s a fun _ => rfl) (by bal) (by balRemoved) (by simp [inClose, Event.isRemoved]) rfl
  case release p =>
    split_ifs
    · exact h.frame ht (extra := []) (by simp [State.goto, State.modRun]; rfl) (by simp) (by simp)
        (map_modify fun _ => rfl) (by bal) (by balRemoved) (by simp [inClose, Event.isRemoved]) rfl
    · exact h.frame ht (extra := []) (by simp [State.goto]; rfl) (by simp) (by simp) rfl (by bal) (by balRemoved) (by simp [inClose, Event.isRemoved]) rfl
  case persist p =>
    exact h.frame ht (extra := []) (by simp [State.goto]; rfl) (by simp) (by simp) rfl (by bal) (by balRemoved) (by simp [inClose, Event.isRemoved]) rfl
  case signal p =>
    exact h.frame ht (extra := []) (by simp [State.goto]; rfl) (by simp) (by simp) rfl (by bal) (by balRemoved) (by simp [inClose, Event.isRemoved]) rfl
  case post p =>
    split_ifs
    · exact h.frame ht (extra := []) (by simp [State.goto]; rfl) (by simp) (by simp) rfl (by bal) (by balRemoved) (by simp [inClose, Event.isRemoved]) rfl
    · exact h.frame ht (extra := []) (by simp [State.goto]; rfl) (by simp) (by simp) rfl (by bal) (by balRemoved) (by simp [inClose, Event.isRemoved]) rfl
  case event =>
    exact h.frame ht (extra := []) (by simp [State.goto]; rfl) (by simp) (by simp) rfl (by bal) (by balRemoved) (by simp [inClose, Event.isRemoved]) rfl

theorem Once.init : Once [] {} :=
  ⟨fun _ _ => by simp [State.isClosed], rfl, rfl, fun _ => by simp [State.isClosed]⟩

theorem Once.step {m : Int} {evs : List Event} {s s' : State} {a : Act} {e : Event}
    (h : Once evs s) (hs : Lifecycle.step m s a = some (s', e)) : Once (evs ++ [e]) s' := by
  unfold Lifecycle.step at hs
  split_ifs at hs
  cases a with
  | submit =>
    simp only [Option.some.injEq, Prod.mk.injEq] at hs
    obtain ⟨rfl, rfl⟩ := hs
    have hcl : ∀ r, State.isClosed { s with
        lastId := s.lastId + 1
        runs := s.runs ++ [{ tries := m, attempt := s.lastId + 1 }]
        threads := s.threads ++ [.adding s.runs.length] } r = s.isClosed r := by
      intro r
      simp only [State.isClosed]
      rcases Nat.lt_trichotomy r s.runs.length with h1 | h1 | h1
      · rw [List.getElem?_append_left h1]
      · subst h1; simp
      · rw [List.getElem?_eq_none (by simp; omega), List.getElem?_eq_none (by omega)]
    constructor
    · intro k r
      have := h.shot k r
      rw [hcl, List.countP_append, List.count_append]
      cases k <;> simpa [Shot.holds, Shot.event] using this
    · have := h.submitted
      simp [List.countP_append, Event.isSubmitted, this]
    · have := h.gone
      simp [List.countP_append, Event.isRemoved, inClose]
      omega
    · intro r
      have := h.removed r
      rw [hcl, List.countP_append, List.count_append]
      simpa [Shot.holds] using this
  | take k =>
    simp only at hs
    split at hs
    · cases hs
    · cases hs
      exact h.spawn rfl (fun k r => by simp [Shot.holds]) (by simp [inClose]) rfl
        (fun k r => by cases k <;> simp [Shot.event]) rfl rfl
  | upload a =>
    simp only at hs
    split at hs
    · cases hs
      exact h.spawn (extra := []) (by simp) (by simp) (by simp) rfl
        (fun k r => by cases k <;> simp [Shot.event]) rfl rfl
    · split at hs
      · cases hs
      · cases hs
        exact h.spawn rfl (fun k r => by simp [Shot.holds]) (by simp [inClose]) rfl
          (fun k r => by cases k <;> simp [Shot.event]) rfl rfl
  | step t =>
    simp only at hs
    split at hs
    · rename_i r ht
      cases hs
      exact h.frame ht (extra := []) (by simp [State.goto]; rfl) (by simp) (by simp) rfl (by bal)
        (by balRemoved) (by simp [inClose, Event.isRemoved]) rfl
    · rename_i r ht
      split at hs
      · cases hs
      · split_ifs at hs
        · cases hs
          exact h.frame ht (extra := []) (by simp [State.goto]; rfl) (by simp) (by simp) rfl (by bal)
            (by balRemoved) (by simp [inClose, Event.isRemoved]) rfl
        · cases hs
          exact h.frame ht (extra := []) (by simp [State.goto, State.modRun]; rfl) (by simp) (by simp)
            (map_modify fun _ => rfl) (by bal) (by balRemoved) (by simp [inClose, Event.isRemoved]) rfl
    · rename_i r ht
      split at hs
      · cases hs
      · cases hs
        exact h.frame ht rfl (fun k r => by simp [Shot.holds]) (by simp [inClose])
          (map_modify fun _ => rfl) (by bal) (by balRemoved) (by simp [inClose, Event.isRemoved]) rfl
    · rename_i i ht
      split at hs
      · cases hs
      · split_ifs at hs
        cases hs
        exact h.frame ht (extra := []) (by simp [State.goto]; rfl) (by simp) (by simp) rfl (by bal)
          (by balRemoved) (by simp [inClose, Event.isRemoved]) rfl
    · rename_i i ht
      split at hs
      · cases hs
      · split_ifs at hs
        cases hs
        exact h.frame ht (extra := []) (by simp [State.goto]; rfl) (by simp) (by simp) rfl (by bal)
          (by balRemoved) (by simp [inClose, Event.isRemoved]) rfl
    · rename_i r a ht
      cases hs
      exact h.frame ht (extra := []) (by simp [State.goto]; rfl) (by simp) (by simp) rfl (by bal)
        (by balRemoved) (by simp [inClose, Event.isRemoved]) rfl
    · rename_i w r last pc ht
      obtain ⟨run, hrun, hs⟩ := Option.map_eq_some_iff.mp hs
      have := h.requeue ht run
      rwa [hs] at this
    · rename_i w r pc ht
      obtain ⟨run, hrun, hs⟩ := Option.map_eq_some_iff.mp hs
      have := h.close ht hrun
      rwa [hs] at this
    · cases hs
    · cases hs
  | fail t =>
    simp only at hs
    split at hs
    · rename_i i ht
      obtain ⟨f, hf, hs⟩ := Option.map_eq_some_iff.mp hs
      cases hs
      exact h.frame ht (extra := []) (by simp [State.goto]; rfl) (by simp) (by simp) rfl (by bal)
        (by balRemoved) (by simp [inClose, Event.isRemoved]) rfl
    · rename_i i ht
      obtain ⟨f, hf, hs⟩ := Option.map_eq_some_iff.mp hs
      cases hs
      exact h.frame ht (extra := []) (by simp [State.goto]; rfl) (by simp) (by simp) rfl (by bal)
        (by balRemoved) (by simp [inClose, Event.isRemoved]) rfl
    · rename_i r a ht
      cases hs
      exact h.frame ht (extra := []) (by simp [State.goto]; rfl) (by simp) (by simp) rfl (by bal)
        (by balRemoved) (by simp [inClose, Event.isRemoved]) rfl
    · rename_i w r l ht
      cases hs
      exact h.frame ht (extra := []) (by simp [State.goto]; rfl) (by simp) (by simp) rfl (by bal)
        (by balRemoved) (by simp [inClose, Event.isRemoved]) rfl
    · rename_i w r p ht
      cases hs
      exact h.frame ht (extra := []) (by simp [State.goto]; rfl) (by simp) (by simp) rfl (by bal)
        (by balRemoved) (by simp [inClose, Event.isRemoved]) rfl
    · cases hs
  | retry t =>
    simp only at hs
    split at hs
    · rename_i r a ht
      cases hs
      exact h.frame ht (extra := []) (by simp [State.goto]; rfl) (by simp) (by simp) rfl (by bal)
        (by balRemoved) (by simp [inClose, Event.isRemoved]) rfl
    · cases hs
  | judgeError t =>
    simp only at hs
    split at hs
    · rename_i r a ht
      cases hs
      exact h.frame ht (extra := []) (by simp [State.goto]; rfl) (by simp) (by simp) rfl (by bal)
        (by balRemoved) (by simp [inClose, Event.isRemoved]) rfl
    · cases hs

theorem Reach.once {m : Int} {evs : List Event} {s : State} (h : Reach m evs s) : Once evs s := by
  induction h with
  | init => exact Once.init
  | step _ hs ih => exact ih.step hs

end Quark.Lifecycle
