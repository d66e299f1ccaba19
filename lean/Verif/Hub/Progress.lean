import Verif.Hub.Props
import Mathlib.Tactic.SplitIfs

/-!
# C59: what can panic, and that the goroutine gets everything delivered
-/
namespace Quark.Hub

variable {ε : Type}

/-! ## The channel is closed exactly once -/

def ClosedInv (s : State ε) : Prop :=
  (s.evClosed = true ↔ ∃ u : Nat, s.calls[u]? = some .close ∧ s.threads[u]? = some .returned)

theorem threadStep_calls (s : State ε) (t : Nat) (th : Thread ε) : (threadStep s t th).calls = s.calls := by
  cases th <;> simp only [threadStep] <;> (repeat' split) <;> rfl

theorem workerStep_same (cap : Nat → Nat) (s : State ε) (b : Bool) :
    (workerStep cap s b).calls = s.calls ∧ (workerStep cap s b).threads = s.threads ∧
    (workerStep cap s b).evClosed = s.evClosed := by
  unfold workerStep takeReg takeEvent
  repeat' split
  all_goals exact ⟨rfl, rfl, rfl⟩

theorem closed_set {s X : State ε} {t : Nat} {th x : Thread ε} (hc : ClosedInv s) (ht : s.threads[t]? = some th)
    (hx : X.threads = s.threads.set t x) (hcl : X.calls = s.calls) (he : X.evClosed = s.evClosed)
    (hne : th ≠ .returned) (hok : x = .returned → s.calls[t]? ≠ some .close) : ClosedInv X := by
  unfold ClosedInv at hc ⊢
  rw [he, hc, hcl, hx]
  have htl := (List.getElem?_eq_some_iff.1 ht).1
  constructor
  · rintro ⟨u, h1, h2⟩
    refine ⟨u, h1, ?_⟩
    rw [List.getElem?_set]
    split_ifs with h
    · subst h; rw [ht] at h2; exact absurd (Option.some.inj h2) hne
    · exact h2
  · rintro ⟨u, h1, h2⟩
    refine ⟨u, h1, ?_⟩
    rw [List.getElem?_set] at h2
    split_ifs at h2 with h
    · subst h; exact absurd h1 (hok (Option.some.inj h2))
    · exact h2

theorem closed_step (cap : Nat → Nat) {s : State ε} (a : Act ε) (hi : Inv s) (hc : ClosedInv s) : ClosedInv (step cap s a) := by
  unfold step
  split
  · exact hc
  · cases a with
    | call c =>
      unfold ClosedInv at hc ⊢
      simp only
      rw [hc]
      constructor
      · rintro ⟨u, h1, h2⟩
        exact ⟨u, by rw [List.getElem?_append_left (List.getElem?_eq_some_iff.1 h1).1]; exact h1,
          by rw [List.getElem?_append_left (List.getElem?_eq_some_iff.1 h2).1]; exact h2⟩
      · rintro ⟨u, h1, h2⟩
        by_cases hu : u < s.threads.length
        · rw [List.getElem?_append_left hu] at h2
          rw [List.getElem?_append_left (by rw [hi.len]; exact hu)] at h1
          exact ⟨u, h1, h2⟩
        · rw [List.getElem?_append_right (by omega)] at h2
          have := List.mem_of_getElem? h2
          rw [List.mem_singleton] at this
          cases c <;> cases this
    | step t =>
      simp only
      split
      · exact hc
      · rename_i th ht
        have htl := (List.getElem?_eq_some_iff.1 ht).1
        obtain ⟨call, hcall⟩ : ∃ x, s.calls[t]? = some x := ⟨_, List.getElem?_eq_getElem (by rw [hi.len]; exact htl)⟩
        have hok := hi.ok t call th hcall ht
        cases th with
        | adding c =>
          simp only [threadStep]
          split
          · exact closed_set hc ht rfl rfl rfl (by simp) (by simp)
          · exact hc
        | waiting c =>
          simp only [threadStep]
          split
          · refine closed_set hc ht rfl rfl rfl (by simp) ?_
            intro _ h
            have hok' : call = .add c := hok
            rw [hcall, hok'] at h
            cases h
          · exact hc
        | posting e =>
          simp only [threadStep]
          split
          · exact hc
          · split
            · refine closed_set hc ht rfl rfl rfl (by simp) ?_
              intro _ h
              rw [hcall, hok.1] at h
              cases h
            · exact hc
        | closing =>
          simp only [threadStep]
          split
          · exact hc
          · have hok' : call = .close := hok
            unfold ClosedInv
            refine ⟨fun _ => ⟨t, by rw [← hok']; exact hcall, ?_⟩, fun _ => rfl⟩
            simp only
            rw [List.getElem?_set_self htl]
        | returned => exact hc
    | work b =>
      obtain ⟨h1, h2, h3⟩ := workerStep_same cap s b
      unfold ClosedInv at hc ⊢
      simp only
      rw [h1, h2, h3]; exact hc
    | take c =>
      simp only
      split <;> exact hc

theorem closed_run (cap : Nat → Nat) (acts : List (Act ε)) : ClosedInv (run cap acts) := by
  induction acts using List.reverseRecOn with
  | nil => simp [ClosedInv, run]
  | append_singleton acts a ih =>
    rw [run_append]
    exact closed_step cap a (inv_run cap acts) ih

/-! ## The goroutine by itself -/

/-- The listeners that are still to be sent the current event. -/
def toSend (s : State ε) : List Nat :=
  match s.worker with
  | .sending _ rest => rest
  | _ => []

/-- Everything there is still to be sent fits. -/
def Room (cap : Nat → Nat) (s : State ε) : Prop :=
  ∀ c, (s.buf c).length + s.evChan.length + (toSend s).count c ≤ cap c

def mu (s : State ε) : Nat :=
  let idle := s.regChan.length + (s.evChan.length + s.evClosed.toNat) * (s.listeners.length + s.regChan.length + 2)
  match s.worker with
  | .idle => idle
  | .sending _ rest => rest.length + 1 + idle
  | .closing rest => rest.length + 1
  | .stopped => 0

theorem takeReg_mu {s : State ε} {x : Nat × Nat} {r : List (Nat × Nat)} (hw : s.worker = .idle) (hr : s.regChan = x :: r) :
    mu (takeReg s) < mu s ∧ (takeReg s).worker = .idle ∧ (takeReg s).evChan = s.evChan ∧ (takeReg s).buf = s.buf ∧
    (takeReg s).panicked = s.panicked := by
  have e : takeReg s = { s with regChan := r, listeners := s.listeners ++ [x.2], acked := s.acked ++ [x.1] } := by
    unfold takeReg; rw [hr]
  rw [e]
  refine ⟨?_, hw, rfl, rfl, rfl⟩
  simp only [mu, hw, hr, List.length_cons, List.length_append, List.length_nil]
  rw [show s.listeners.length + (0 + 1) + r.length + 2 = s.listeners.length + (r.length + 1) + 2 by omega]
  omega

theorem takeEvent_cons {s : State ε} {e : ε} {r : List ε} (he : s.evChan = e :: r) :
    takeEvent s = { s with evChan := r, worker := .sending e s.listeners } := by unfold takeEvent; rw [he]

theorem takeEvent_nil {s : State ε} (he : s.evChan = []) :
    takeEvent s = if s.evClosed then { s with worker := .closing s.listeners } else s := by unfold takeEvent; rw [he]

/-- One step: it does something unless there is nothing left to do, does not panic, and what is left still fits. -/
theorem work_step (cap : Nat → Nat) {s : State ε} (b : Bool) (hi : Inv s) (hn : s.listeners.Nodup) (hroom : Room cap s)
    (hp : s.panicked = false) :
    (if mu s = 0 then workerStep cap s b = s else mu (workerStep cap s b) < mu s) ∧ Room cap (workerStep cap s b) ∧
    (workerStep cap s b).panicked = false := by
  have hwork := hi.work
  have event : s.worker = .idle → (¬ (s.evChan = [] ∧ s.evClosed = false) ∨ s.regChan = []) →
      (if mu s = 0 then takeEvent s = s else mu (takeEvent s) < mu s) ∧ Room cap (takeEvent s) ∧
      (takeEvent s).panicked = false := by
    intro hw hcase
    cases he : s.evChan with
    | cons e r =>
      rw [takeEvent_cons he]
      have hmu : ¬ mu s = 0 := by
        simp only [mu, hw, he, List.length_cons]
        have : 1 ≤ (r.length + 1 + s.evClosed.toNat) * (s.listeners.length + s.regChan.length + 2) :=
          Nat.mul_pos (by omega) (by omega)
        omega
      rw [if_neg hmu]
      refine ⟨?_, ?_, hp⟩
      · simp only [mu, hw, he, List.length_cons]
        rw [show r.length + 1 + s.evClosed.toNat = (r.length + s.evClosed.toNat) + 1 by omega, Nat.succ_mul]
        omega
      · intro c
        have := hroom c
        simp only [toSend, hw, he, List.length_cons, List.count_nil] at this ⊢
        have := List.nodup_iff_count_le_one.mp hn c
        omega
    | nil =>
      rw [takeEvent_nil he]
      cases hc : s.evClosed with
      | true =>
        simp only [if_true]
        have hmu : ¬ mu s = 0 := by simp [mu, hw, he, hc]
        rw [if_neg hmu]
        refine ⟨by simp only [mu, hw, he, hc, List.length_nil, Bool.toNat_true]; omega, ?_, hp⟩
        intro c
        have := hroom c
        simpa [toSend, hw, he] using this
      | false =>
        rcases hcase with h | h
        · exact absurd ⟨he, hc⟩ h
        · have hmu : mu s = 0 := by simp [mu, hw, he, hc, h]
          rw [if_pos hmu]
          exact ⟨by simp, by simpa using hroom, by simpa using hp⟩
  have reg : s.worker = .idle → s.regChan ≠ [] →
      (if mu s = 0 then takeReg s = s else mu (takeReg s) < mu s) ∧ Room cap (takeReg s) ∧
      (takeReg s).panicked = false := by
    intro hw hne
    obtain ⟨x, r, hr⟩ := List.exists_cons_of_ne_nil hne
    obtain ⟨h1, h2, h3, h4, h5⟩ := takeReg_mu hw hr
    rw [if_neg (by omega)]
    refine ⟨h1, ?_, by rw [h5]; exact hp⟩
    intro c
    have := hroom c
    simp only [toSend, h2, h3, h4, hw] at this ⊢
    exact this
  cases hw : s.worker with
  | idle =>
    have e1 : workerStep cap s b = if b then (if s.regChan.isEmpty then takeEvent s else takeReg s)
        else if s.evChan.isEmpty && !s.evClosed then takeReg s else takeEvent s := by
      unfold workerStep; rw [hw]
    by_cases h1 : b = true
    · rw [if_pos h1] at e1
      by_cases h : s.regChan = []
      · rw [if_pos (List.isEmpty_iff.mpr h)] at e1
        rw [e1]
        exact event hw (.inr h)
      · rw [if_neg (fun e => h (List.isEmpty_iff.mp e))] at e1
        rw [e1]
        exact reg hw h
    · rw [if_neg h1] at e1
      by_cases h : s.evChan = [] ∧ s.evClosed = false
      · rw [if_pos (by simp [h.1, h.2])] at e1
        rw [e1]
        by_cases hr : s.regChan = []
        · have hmu : mu s = 0 := by simp [mu, hw, h.1, h.2, hr]
          have e : takeReg s = s := by unfold takeReg; rw [hr]
          rw [if_pos hmu, e]
          exact ⟨rfl, hroom, hp⟩
        · exact reg hw hr
      · rw [if_neg (by simpa using h)] at e1
        rw [e1]
        exact event hw (.inl h)
  | sending e rest =>
    rw [hw] at hwork
    have hmu : ¬ mu s = 0 := by simp only [mu, hw]; omega
    rw [if_neg hmu]
    cases rest with
    | nil =>
      have e1 : workerStep cap s b = { s with worker := .idle } := by unfold workerStep; rw [hw]
      rw [e1]
      refine ⟨by simp only [mu, hw, List.length_nil]; omega, ?_, hp⟩
      intro c
      have := hroom c
      simpa [toSend, hw] using this
    | cons d rest =>
      have hroomd := hroom d
      simp only [toSend, hw, List.count_cons_self] at hroomd
      have e1 : workerStep cap s b = { s with buf := upd s.buf d (s.buf d ++ [e]), worker := .sending e rest } := by
        unfold workerStep; rw [hw]
        simp only
        rw [if_neg (by rw [hwork.1 d]; omega), if_pos (by omega)]
      rw [e1]
      refine ⟨by simp only [mu, hw, List.length_cons]; omega, ?_, hp⟩
      intro c
      have := hroom c
      simp only [toSend, hw, List.count_cons, upd] at this ⊢
      by_cases hcd : c = d
      · subst hcd
        simp only [if_true, List.length_append, List.length_singleton, beq_self_eq_true] at this ⊢
        omega
      · simp only [hcd, if_false]
        omega
  | closing rest =>
    rw [hw] at hwork
    have hmu : ¬ mu s = 0 := by simp only [mu, hw]; omega
    rw [if_neg hmu]
    cases rest with
    | nil =>
      have e1 : workerStep cap s b = { s with worker := .stopped } := by unfold workerStep; rw [hw]
      rw [e1]
      refine ⟨by simp only [mu, hw, List.length_nil]; omega, ?_, hp⟩
      intro c
      have := hroom c
      simpa [toSend, hw] using this
    | cons d rest =>
      obtain ⟨-, -, pre, hpre, hcl⟩ := hwork
      have hnd : d ∉ pre := by
        rw [hpre, List.nodup_append] at hn
        intro hd
        exact hn.2.2 d hd d (by simp) rfl
      have e1 : workerStep cap s b = { s with closed := upd s.closed d (s.closed d + 1), worker := .closing rest } := by
        unfold workerStep; rw [hw]
        simp only
        rw [if_neg (by rw [hcl hn d, if_neg hnd]; omega)]
      rw [e1]
      refine ⟨by simp only [mu, hw, List.length_cons]; omega, ?_, hp⟩
      intro c
      have := hroom c
      simpa [toSend, hw] using this
  | stopped =>
    have e1 : workerStep cap s b = s := by unfold workerStep; rw [hw]
    have hmu : mu s = 0 := by simp only [mu, hw]
    rw [if_pos hmu, e1]
    exact ⟨rfl, hroom, hp⟩

theorem work_steps (cap : Nat → Nat) (bs : List Bool) {s : State ε} (hi : Inv s) (hd : Distinct s.calls) (hroom : Room cap s)
    (hp : s.panicked = false) (hlen : mu s ≤ bs.length) :
    let s' := (bs.map Act.work).foldl (step cap) s
    Inv s' ∧ mu s' = 0 ∧ s'.panicked = false ∧ s'.evClosed = s.evClosed := by
  induction bs generalizing s with
  | nil => exact ⟨hi, by simpa using hlen, hp, rfl⟩
  | cons b bs ih =>
    have e : step cap s (.work b) = workerStep cap s b := by unfold step; rw [hp]; rfl
    obtain ⟨h1, h2, h3⟩ := work_step cap b hi (listeners_nodup hi hd) hroom hp
    obtain ⟨hc, -, hcl⟩ := workerStep_same cap s b
    simp only [List.map_cons, List.foldl_cons, e]
    have := ih (s := workerStep cap s b) (worker_inv cap b hi) (by rw [hc]; exact hd) h2 h3 ?_
    · simp only at this
      rw [hcl] at this
      exact this
    · split at h1
      · rename_i h; rw [h1, h]; omega
      · simp only [List.length_cons] at hlen; omega

/-- **C59** Nothing is left lying about: from wherever callers have got to, if no channel is registered twice and every channel has room for
two events, then after finitely many steps of the goroutine, whichever cases its selects take, all registrations and events it was given
are dealt with, and if `Close` was called it has ended; nothing panicked on the way. With `C59_later_events`, every listener then has
exactly the events since its registration. -/
theorem C59_drains (cap : Nat → Nat) (acts : List (Act ε)) (hd : Distinct (run cap acts).calls) (hp : (run cap acts).panicked = false)
    (hroom : ∀ c, ((run cap acts).buf c).length + 2 ≤ cap c) :
    ∃ n, ∀ bs : List Bool, n ≤ bs.length →
      let s := run cap (acts ++ bs.map Act.work)
      Quiet s ∧ s.panicked = false ∧ (s.worker = .stopped ∨ s.regChan = []) ∧
      ((∃ u : Nat, (run cap acts).calls[u]? = some .close ∧ (run cap acts).threads[u]? = some .returned) → s.worker = .stopped) := by
  have hi := inv_run cap acts
  refine ⟨mu (run cap acts), fun bs hbs => ?_⟩
  have hr : Room cap (run cap acts) := by
    intro c
    have h1 := hroom c
    have h2 := evChan_le cap acts
    have h3 : (toSend (run cap acts)).count c ≤ 1 := by
      refine List.nodup_iff_count_le_one.mp ?_ c
      have hw := hi.work
      have hn := listeners_nodup hi hd
      unfold toSend
      split
      · rename_i e rest hwk
        rw [hwk] at hw
        obtain ⟨-, ⟨pre, hpre⟩, -⟩ := hw
        rw [hpre] at hn
        exact (List.nodup_append.mp hn).2.1
      · exact List.nodup_nil
    omega
  obtain ⟨hi', hmu, hp', hcl⟩ := work_steps cap bs hi hd hr hp hbs
  rw [← run_append'] at hi' hmu hp' hcl
  have hw := hi'.work
  refine ⟨?_, hp', ?_, ?_⟩
  · cases hwk : (run cap (acts ++ bs.map Act.work)).worker with
    | idle =>
      refine ⟨?_, .inl hwk⟩
      simp only [mu, hwk, Nat.add_eq_zero_iff, Nat.mul_eq_zero] at hmu
      have : (run cap (acts ++ bs.map Act.work)).evChan.length = 0 := by omega
      exact List.length_eq_zero_iff.mp this
    | sending e rest => simp only [mu, hwk] at hmu; omega
    | closing rest => simp only [mu, hwk] at hmu; omega
    | stopped => rw [hwk] at hw; exact ⟨hw.1, .inr (.inr hwk)⟩
  · cases hwk : (run cap (acts ++ bs.map Act.work)).worker with
    | idle =>
      simp only [mu, hwk, Nat.add_eq_zero_iff] at hmu
      exact .inr (List.length_eq_zero_iff.mp hmu.1)
    | sending e rest => simp only [mu, hwk] at hmu; omega
    | closing rest => simp only [mu, hwk] at hmu; omega
    | stopped => exact .inl rfl
  · intro hu
    have hcl' := (closed_run cap acts).mpr hu
    rw [hcl'] at hcl
    cases hwk : (run cap (acts ++ bs.map Act.work)).worker with
    | idle =>
      simp only [mu, hwk, hcl, Bool.toNat_true, Nat.add_eq_zero_iff, Nat.mul_eq_zero] at hmu
      omega
    | sending e rest => simp only [mu, hwk] at hmu; omega
    | closing rest => simp only [mu, hwk] at hmu; omega
    | stopped => rfl

/-- **C59** What panics: posting an event or closing once `Close` has returned, and nothing else as long as no channel is registered twice. -/
theorem C59_panics (cap : Nat → Nat) (acts : List (Act ε)) (a : Act ε) (hd : Distinct (run cap acts).calls)
    (hp : (run cap acts).panicked = false) :
    (run cap (acts ++ [a])).panicked = true ↔
      (∃ u : Nat, (run cap acts).calls[u]? = some .close ∧ (run cap acts).threads[u]? = some .returned) ∧
      ∃ t, a = .step t ∧ ((∃ e, (run cap acts).threads[t]? = some (.posting e)) ∨ (run cap acts).threads[t]? = some .closing) := by
  have hcl := closed_run cap acts
  unfold ClosedInv at hcl
  rw [← hcl, run_append]
  have hi := inv_run cap acts
  have hn := listeners_nodup hi hd
  generalize run cap acts = s at *
  unfold step
  rw [hp]
  simp only [Bool.false_eq_true, if_false]
  cases a with
  | call c => simp
  | take c =>
    simp only [reduceCtorEq, false_and, exists_false, and_false, iff_false]
    split <;> simp [hp]
  | work b =>
    simp only [reduceCtorEq, false_and, exists_false, and_false, iff_false, Bool.not_eq_true]
    have hwork := hi.work
    unfold workerStep
    cases hw : s.worker with
    | idle =>
      simp only [takeReg, takeEvent]
      repeat' split
      all_goals exact hp
    | sending e rest =>
      rw [hw] at hwork
      cases rest with
      | nil => exact hp
      | cons d rest =>
        simp only
        rw [if_neg (by rw [hwork.1 d]; omega)]
        split <;> exact hp
    | closing rest =>
      rw [hw] at hwork
      cases rest with
      | nil => exact hp
      | cons d rest =>
        obtain ⟨-, -, pre, hpre, hcl⟩ := hwork
        have hnd : d ∉ pre := by
          rw [hpre, List.nodup_append] at hn
          intro hd
          exact hn.2.2 d hd d (by simp) rfl
        simp only
        rw [if_neg (by rw [hcl hn d, if_neg hnd]; omega)]
        exact hp
    | stopped => exact hp
  | step t =>
    simp only [Act.step.injEq, exists_eq_left']
    cases ht : s.threads[t]? with
    | none => simp [hp]
    | some th =>
      cases th with
      | adding c => simp only [threadStep]; split <;> simp [hp]
      | waiting c => simp only [threadStep]; split <;> simp [hp]
      | posting e =>
        simp only [threadStep]
        split
        · rename_i h; simp [h]
        · rename_i h; split <;> simp [hp, h]
      | closing =>
        simp only [threadStep]
        split
        · rename_i h; simp [h]
        · rename_i h; simp [hp, h]
      | returned => simp [threadStep, hp]

section Example

/-- Two listeners, one event, then `Close`, all before the goroutine did anything but register. -/
def drainActs : List (Act Nat) :=
  [.call (.add 10), .call (.post 7), .call .close, .call (.post 8), .step 0, .work true, .step 0, .step 1, .step 2]

example : ∃ n, ∀ bs : List Bool, n ≤ bs.length → (run (fun _ => 5) (drainActs ++ bs.map Act.work)).worker = .stopped := by
  have hd : Distinct (run (fun _ => 5) drainActs).calls := by
    have e : (run (fun _ => 5) drainActs).calls = [.add 10, .post 7, .close, .post 8] := by decide
    rw [e]
    intro t t' c h h'
    match t, t', h, h' with
    | 0, 0, _, _ => rfl
    | t + 4, _, h, _ => simp at h
    | _, t' + 4, _, h' => simp at h'
    | 1, _, h, _ => simp at h
    | 2, _, h, _ => simp at h
    | 3, _, h, _ => simp at h
    | _, 1, _, h' => simp at h'
    | _, 2, _, h' => simp at h'
    | _, 3, _, h' => simp at h'
  have hb : ∀ c, ((run (fun _ => 5) drainActs).buf c).length = 0 := by
    intro c
    rfl
  obtain ⟨n, hn⟩ := C59_drains (fun _ => 5) drainActs hd (by decide) (fun c => by rw [hb c]; omega)
  exact ⟨n, fun bs hbs => (hn bs hbs).2.2.2 ⟨2, by decide, by decide⟩⟩

/-- The caller that still has to post panics. -/
example : (run (fun _ => 5) (drainActs ++ [.step 3])).panicked = true := by decide

end Example

end Quark.Hub
