import Verif.Hub.Model
import Mathlib.Data.List.Nodup
import Mathlib.Data.List.Induction
import Mathlib.Tactic.SplitIfs

namespace Quark.Hub

variable {ε : Type}

/-! ## Specification -/

/-- What channel `c` has been sent. -/
def received (s : State ε) (c : Nat) : List ε := s.taken c ++ s.buf c

/-- No channel is registered twice. -/
def Distinct (calls : List (Call ε)) : Prop :=
  ∀ (t t' c : Nat), calls[t]? = some (.add c) → calls[t']? = some (.add c) → t = t'

/-- The goroutine has nothing more to pass on. -/
def Quiet (s : State ε) : Prop :=
  s.evChan = [] ∧ (s.worker = .idle ∨ (∃ l, s.worker = .closing l) ∨ s.worker = .stopped)

/-! ## Invariant -/

def ThreadOk (s : State ε) (t : Nat) (call : Call ε) : Thread ε → Prop
  | .adding c => call = .add c ∧ t ∉ s.regChan.map Prod.fst ∧ t ∉ s.acked
  | .waiting c => call = .add c
  | .posting e => call = .post e ∧ t ∉ s.accepted.map Prod.fst
  | .closing => call = .close
  | .returned =>
    match call with
    | .add _ => t ∈ s.acked
    | .post e => s.accepted.filter (fun x => x.1 == t) = [(t, e)]
    | .close => True

/-- The events taken out of the event channel so far. -/
def processed (s : State ε) : List ε := (s.accepted.map Prod.snd).take (s.accepted.length - s.evChan.length)

structure Inv (s : State ε) : Prop where
  len : s.calls.length = s.threads.length
  ok : ∀ (t : Nat) call th, s.calls[t]? = some call → s.threads[t]? = some th → ThreadOk s t call th
  reg : ∀ x ∈ s.regChan, s.calls[x.1]? = some (.add x.2)
  acked : List.Forall₂ (fun t c => s.calls[t]? = some (.add c)) s.acked s.listeners
  nodup : (s.regChan.map Prod.fst ++ s.acked).Nodup
  accTid : ∀ x ∈ s.accepted, x.1 < s.threads.length
  acc : s.accepted.map Prod.snd = processed s ++ s.evChan
  none : ∀ c, c ∉ s.listeners → received s c = [] ∧ s.closed c = 0
  work : match s.worker with
    | .idle => ∀ c, s.closed c = 0
    | .sending e rest => (∀ c, s.closed c = 0) ∧ (∃ pre, s.listeners = pre ++ rest) ∧
        ∃ p, processed s = p ++ [e]
    | .closing rest => s.evChan = [] ∧ s.evClosed = true ∧ ∃ pre, s.listeners = pre ++ rest ∧
        (s.listeners.Nodup → ∀ c, s.closed c = if c ∈ pre then 1 else 0)
    | .stopped => s.evChan = [] ∧ s.evClosed = true ∧
        (s.listeners.Nodup → ∀ c, s.closed c = if c ∈ s.listeners then 1 else 0)

theorem inv_init : Inv ({} : State ε) := by
  constructor <;> simp [received, processed]

theorem processed_congr {s s' : State ε} (h1 : s'.accepted = s.accepted) (h2 : s'.evChan = s.evChan) :
    processed s' = processed s := by simp [processed, h1, h2]

theorem forall₂_calls {calls calls' : List (Call ε)} {a l : List Nat}
    (hc : ∀ (t : Nat) c, calls[t]? = some c → calls'[t]? = some c)
    (h : List.Forall₂ (fun t c => calls[t]? = some (.add c)) a l) :
    List.Forall₂ (fun t c => calls'[t]? = some (.add c)) a l := by
  induction h with
  | nil => exact .nil
  | cons h _ ih => exact .cons (hc _ _ h) ih

theorem forall₂_append {R : Nat → Nat → Prop} {a a' l l' : List Nat} (h : List.Forall₂ R a l)
    (h' : List.Forall₂ R a' l') : List.Forall₂ R (a ++ a') (l ++ l') := by
  induction h with
  | nil => exact h'
  | cons h _ ih => exact .cons h ih

theorem forall₂_mem {R : Nat → Nat → Prop} {a l : List Nat} (h : List.Forall₂ R a l) {c : Nat} (hc : c ∈ l) :
    ∃ t ∈ a, R t c := by
  induction h with
  | nil => cases hc
  | cons h _ ih =>
    rcases List.mem_cons.1 hc with rfl | hc'
    · exact ⟨_, by simp, h⟩
    · obtain ⟨t, ht, hr⟩ := ih hc'
      exact ⟨t, by simp [ht], hr⟩

theorem forall₂_mem' {R : Nat → Nat → Prop} {a l : List Nat} (h : List.Forall₂ R a l) {t : Nat} (ht : t ∈ a) :
    ∃ c ∈ l, R t c := by
  induction h with
  | nil => cases ht
  | cons h _ ih =>
    rcases List.mem_cons.1 ht with rfl | ht'
    · exact ⟨_, by simp, h⟩
    · obtain ⟨t, ht, hr⟩ := ih ht'
      exact ⟨t, by simp [ht], hr⟩

theorem listeners_nodup {s : State ε} (h : Inv s) (hd : Distinct s.calls) : s.listeners.Nodup := by
  have hn : s.acked.Nodup := (List.nodup_append.1 h.nodup).2.1
  have := h.acked
  generalize s.acked = a at this hn
  generalize s.listeners = l at this
  induction this with
  | nil => exact List.nodup_nil
  | @cons t c a l hr hrest ih =>
    rw [List.nodup_cons] at hn ⊢
    refine ⟨?_, ih hn.2⟩
    intro hc
    obtain ⟨t', ht', hr'⟩ := forall₂_mem hrest hc
    rw [hd t t' c hr hr'] at hn
    exact hn.1 ht'

theorem processed_length {s : State ε} (h : Inv s) : (processed s).length + s.evChan.length = s.accepted.length := by
  have := congrArg List.length h.acc
  simp at this
  omega

theorem processed_eq {s : State ε} {p : List ε} (h : s.accepted.map Prod.snd = p ++ s.evChan) : processed s = p := by
  have hl := congrArg List.length h
  simp at hl
  unfold processed
  rw [h, List.take_left']
  omega

theorem run_append (cap : Nat → Nat) (acts : List (Act ε)) (a : Act ε) :
    run cap (acts ++ [a]) = step cap (run cap acts) a := by simp [run]

theorem run_append' (cap : Nat → Nat) (acts acts' : List (Act ε)) :
    run cap (acts ++ acts') = acts'.foldl (step cap) (run cap acts) := by simp [run]

/-- Which parts of the state the other threads look at. -/
theorem ThreadOk.other {s s' : State ε} {t : Nat} {call : Call ε} {th : Thread ε} (h : ThreadOk s t call th)
    (h1 : t ∉ s.regChan.map Prod.fst → t ∉ s.acked → t ∉ s'.regChan.map Prod.fst ∧ t ∉ s'.acked)
    (h2 : t ∈ s.acked → t ∈ s'.acked)
    (h3 : s'.accepted.filter (fun x => x.1 == t) = s.accepted.filter (fun x => x.1 == t)) : ThreadOk s' t call th := by
  have h3' : t ∉ s.accepted.map Prod.fst → t ∉ s'.accepted.map Prod.fst := by
    intro hn hm
    obtain ⟨x, hx, rfl⟩ := List.mem_map.1 hm
    have : x ∈ s'.accepted.filter (fun y => y.1 == x.1) := List.mem_filter.2 ⟨hx, by simp⟩
    rw [h3] at this
    exact hn (List.mem_map.2 ⟨x, (List.mem_filter.1 this).1, rfl⟩)
  cases th with
  | adding c => exact ⟨h.1, h1 h.2.1 h.2.2⟩
  | waiting c => exact h
  | posting e => exact ⟨h.1, h3' h.2⟩
  | closing => exact h
  | returned =>
    cases call with
    | add c => exact h2 h
    | post e => simp only [ThreadOk] at h ⊢; rw [h3]; exact h
    | close => trivial

theorem thread_inv {s : State ε} {t : Nat} {th : Thread ε} (ht : s.threads[t]? = some th) (h : Inv s) :
    Inv (threadStep s t th) := by
  have htl := (List.getElem?_eq_some_iff.1 ht).1
  obtain ⟨call, hc⟩ : ∃ c, s.calls[t]? = some c := ⟨_, List.getElem?_eq_getElem (by rw [h.len]; exact htl)⟩
  have hok := h.ok t call th hc ht
  have get : ∀ (x : Thread ε) (t' : Nat) y, (s.threads.set t x)[t']? = some y →
      (t' = t ∧ y = x) ∨ (t' ≠ t ∧ s.threads[t']? = some y) := by
    intro x t' y hy
    rw [List.getElem?_set] at hy
    split_ifs at hy with h1
    · simp only [Option.some.injEq] at hy; exact Or.inl ⟨h1.symm, hy.symm⟩
    · exact Or.inr ⟨fun e => h1 e.symm, hy⟩
  cases th with
  | adding c =>
    simp only [threadStep]
    split_ifs with hlen
    · obtain ⟨rfl, h1, h2⟩ := hok
      have hr : s.regChan = [] := List.length_eq_zero_iff.1 (by omega)
      refine { len := by simpa using h.len, ok := ?_, reg := ?_, acked := h.acked, nodup := ?_, accTid := by simpa using h.accTid,
               acc := h.acc, none := h.none, work := h.work }
      · intro t' call' y hc' hy
        rcases get _ _ _ hy with ⟨rfl, rfl⟩ | ⟨hne, hy⟩
        · have : call' = .add c := by
            have h5 : s.calls[t']? = some call' := hc'
            rw [hc] at h5; simpa using h5.symm
          exact this
        · refine (h.ok t' call' y hc' hy).other ?_ id rfl
          intro _ h4
          refine ⟨?_, h4⟩
          simp [hr, hne]
      · intro x hx
        simp only [hr, List.nil_append, List.mem_singleton] at hx
        subst hx
        exact hc
      · have := h.nodup
        simp only [hr, List.nil_append, List.map_nil, List.map_cons, List.cons_append, List.nodup_cons] at this ⊢
        exact ⟨h2, this⟩
    · exact h
  | waiting c =>
    simp only [threadStep]
    split_ifs with ha
    · have hok' : call = .add c := hok
      subst hok'
      refine { len := by simpa using h.len, ok := ?_, reg := h.reg, acked := h.acked, nodup := h.nodup,
               accTid := by simpa using h.accTid, acc := h.acc, none := h.none, work := h.work }
      intro t' call' y hc' hy
      rcases get _ _ _ hy with ⟨rfl, rfl⟩ | ⟨hne, hy⟩
      · have : call' = .add c := by
          have h5 : s.calls[t']? = some call' := hc'
          rw [hc] at h5; simpa using h5.symm
        subst this
        exact ha
      · exact (h.ok t' call' y hc' hy).other (fun h1 h2 => ⟨h1, h2⟩) id rfl
    · exact h
  | posting e =>
    obtain ⟨rfl, hna⟩ := hok
    simp only [threadStep]
    split_ifs with hcl hlen
    · exact { len := h.len, ok := h.ok, reg := h.reg, acked := h.acked, nodup := h.nodup, accTid := h.accTid,
              acc := h.acc, none := h.none, work := h.work }
    · have he : s.evChan = [] := List.length_eq_zero_iff.1 (by omega)
      have hacc : s.accepted.map Prod.snd = processed s := by have := h.acc; rw [he, List.append_nil] at this; exact this
      have hp : ∀ X : State ε, X.accepted = s.accepted ++ [(t, e)] → X.evChan = [e] → processed X = processed s := by
        intro X h1 h2
        apply processed_eq
        rw [h1, h2, List.map_append, hacc]; rfl
      refine { len := by simpa using h.len, ok := ?_, reg := h.reg, acked := h.acked, nodup := h.nodup, accTid := ?_,
               acc := ?_, none := h.none, work := ?_ }
      · intro t' call' y hc' hy
        rcases get _ _ _ hy with ⟨rfl, rfl⟩ | ⟨hne, hy⟩
        · have : call' = .post e := by
            have h5 : s.calls[t']? = some call' := hc'
            rw [hc] at h5; simpa using h5.symm
          subst this
          have : s.accepted.filter (fun x => x.1 == t') = [] := by
            rw [List.filter_eq_nil_iff]
            intro x hx hx'
            simp only [beq_iff_eq] at hx'
            exact hna (List.mem_map.2 ⟨x, hx, hx'⟩)
          simp [ThreadOk, List.filter_append, this]
        · refine (h.ok t' call' y hc' hy).other (fun h1 h2 => ⟨h1, h2⟩) id ?_
          simp [List.filter_append, Ne.symm hne]
      · intro x hx
        simp only [List.mem_append, List.mem_singleton] at hx
        simp only [List.length_set]
        rcases hx with hx | rfl
        · exact h.accTid x hx
        · exact htl
      · rw [hp _ rfl (by simp [he])]
        simp [hacc, he]
      · have hw := h.work
        cases hwk : s.worker with
        | idle => rw [hwk] at hw; exact hw
        | sending e' rest =>
          rw [hwk] at hw
          simp only
          rw [hp _ rfl (by simp [he])]
          exact hw
        | closing rest => rw [hwk] at hw; exact absurd hw.2.1 hcl
        | stopped => rw [hwk] at hw; exact absurd hw.2.1 hcl
    · exact h
  | closing =>
    simp only [threadStep]
    split_ifs with hcl
    · exact { len := h.len, ok := h.ok, reg := h.reg, acked := h.acked, nodup := h.nodup, accTid := h.accTid,
              acc := h.acc, none := h.none, work := h.work }
    · refine { len := by simpa using h.len, ok := ?_, reg := h.reg, acked := h.acked, nodup := h.nodup,
               accTid := by simpa using h.accTid, acc := h.acc, none := h.none, work := ?_ }
      · intro t' call' y hc' hy
        rcases get _ _ _ hy with ⟨rfl, rfl⟩ | ⟨hne, hy⟩
        · have : call' = .close := by
            have h5 : s.calls[t']? = some call' := hc'
            rw [hc] at h5
            have h6 : call = .close := hok
            simp only [Option.some.injEq] at h5
            rw [← h5, h6]
          subst this
          trivial
        · exact (h.ok t' call' y hc' hy).other (fun h1 h2 => ⟨h1, h2⟩) id rfl
      · have hw := h.work
        cases hwk : s.worker with
        | idle => rw [hwk] at hw; exact hw
        | sending e' rest => rw [hwk] at hw; exact hw
        | closing rest => rw [hwk] at hw; exact absurd hw.2.1 hcl
        | stopped => rw [hwk] at hw; exact absurd hw.2.1 hcl
  | returned => exact h

theorem register_inv {s : State ε} {t c : Nat} {rest : List (Nat × Nat)} (h : Inv s) (hw : s.worker = .idle)
    (hr : s.regChan = (t, c) :: rest) :
    Inv { s with regChan := rest, listeners := s.listeners ++ [c], acked := s.acked ++ [t] } := by
  have hn := h.nodup
  rw [hr] at hn
  simp only [List.map_cons, List.cons_append, List.nodup_cons, List.mem_append, not_or] at hn
  refine { len := h.len, ok := ?_, reg := ?_, acked := ?_, nodup := ?_, accTid := h.accTid, acc := h.acc,
           none := ?_, work := ?_ }
  · intro t' call' y hc' hy
    refine (h.ok t' call' y hc' hy).other ?_ ?_ rfl
    · intro h1 h2
      rw [hr] at h1
      simp only [List.map_cons, List.mem_cons, not_or] at h1
      simp only [List.mem_append, List.mem_singleton, not_or]
      exact ⟨h1.2, h2, h1.1⟩
    · intro h1; simp [h1]
  · intro x hx
    exact h.reg x (by rw [hr]; simp [hx])
  · exact forall₂_append h.acked (.cons (h.reg (t, c) (by rw [hr]; simp)) .nil)
  · simp only
    rw [← List.append_assoc, List.nodup_append]
    refine ⟨hn.2, by simp, ?_⟩
    intro a ha b hb
    simp only [List.mem_singleton] at hb
    subst hb
    rintro rfl
    rcases List.mem_append.1 ha with ha | ha
    · exact hn.1.1 ha
    · exact hn.1.2 ha
  · intro c' hc'
    simp only [List.mem_append, not_or] at hc'
    exact h.none c' hc'.1
  · have := h.work
    rw [hw] at this
    simp only
    rw [hw]
    exact this

theorem takeReg_inv {s : State ε} (h : Inv s) (hw : s.worker = .idle) : Inv (takeReg s) := by
  unfold takeReg
  split
  · exact h
  · rename_i t c rest hr; exact register_inv h hw hr

theorem takeEvent_inv {s : State ε} (h : Inv s) (hw : s.worker = .idle) : Inv (takeEvent s) := by
  have hwork := h.work
  rw [hw] at hwork
  unfold takeEvent
  split
  · rename_i e rest he
    have hp : ∀ X : State ε, X.accepted = s.accepted → X.evChan = rest → processed X = processed s ++ [e] := by
      intro X h1 h2
      apply processed_eq
      rw [h1, h2, h.acc, he]; simp
    refine { len := h.len, ok := fun t c y h1 h2 => (h.ok t c y h1 h2).other (fun a b => ⟨a, b⟩) id rfl,
             reg := h.reg, acked := h.acked, nodup := h.nodup, accTid := h.accTid, acc := ?_, none := h.none,
             work := ?_ }
    · rw [hp { s with evChan := rest, worker := .sending e s.listeners } rfl rfl]
      simp only
      rw [h.acc, he]; simp
    · exact ⟨hwork, ⟨[], rfl⟩, processed s, hp _ rfl rfl⟩
  · rename_i he
    split_ifs with hcl
    · refine { len := h.len, ok := fun t c y h1 h2 => (h.ok t c y h1 h2).other (fun a b => ⟨a, b⟩) id rfl,
               reg := h.reg, acked := h.acked, nodup := h.nodup, accTid := h.accTid, acc := h.acc, none := h.none,
               work := ?_ }
      exact ⟨he, hcl, [], rfl, fun _ c => by simpa using hwork c⟩
    · exact h

theorem worker_inv (cap : Nat → Nat) {s : State ε} (first : Bool) (h : Inv s) : Inv (workerStep cap s first) := by
  have hwork := h.work
  unfold workerStep
  cases hw : s.worker with
  | idle =>
    simp only
    split_ifs
    · exact takeEvent_inv h hw
    · exact takeReg_inv h hw
    · exact takeReg_inv h hw
    · exact takeEvent_inv h hw
  | sending e rest =>
    rw [hw] at hwork
    obtain ⟨hcl, ⟨pre, hpre⟩, p, hp⟩ := hwork
    cases rest with
    | nil =>
      refine { len := h.len, ok := fun t c y h1 h2 => (h.ok t c y h1 h2).other (fun a b => ⟨a, b⟩) id rfl,
               reg := h.reg, acked := h.acked, nodup := h.nodup, accTid := h.accTid, acc := h.acc, none := h.none,
               work := hcl }
    | cons c rest =>
      simp only
      split_ifs with h1 h2
      · exact absurd (hcl c) (by omega)
      · refine { len := h.len, ok := fun t c y h1 h2 => (h.ok t c y h1 h2).other (fun a b => ⟨a, b⟩) id rfl,
                 reg := h.reg, acked := h.acked, nodup := h.nodup, accTid := h.accTid, acc := h.acc, none := ?_,
                 work := ?_ }
        · intro c' hc'
          have hne : c' ≠ c := by rintro rfl; exact hc' (by simp only [hpre]; simp)
          have := h.none c' hc'
          simpa [received, upd, hne] using this
        · exact ⟨hcl, ⟨pre ++ [c], by simp [hpre]⟩, p, hp⟩
      · exact h
  | closing rest =>
    rw [hw] at hwork
    obtain ⟨he, hcl, pre, hpre, hclosed⟩ := hwork
    cases rest with
    | nil =>
      refine { len := h.len, ok := fun t c y h1 h2 => (h.ok t c y h1 h2).other (fun a b => ⟨a, b⟩) id rfl,
               reg := h.reg, acked := h.acked, nodup := h.nodup, accTid := h.accTid, acc := h.acc, none := h.none,
               work := ⟨he, hcl, ?_⟩ }
      rw [List.append_nil] at hpre
      simp only
      rw [hpre] at hclosed ⊢
      exact hclosed
    | cons c rest =>
      simp only
      split_ifs with h1
      · exact { len := h.len, ok := h.ok, reg := h.reg, acked := h.acked, nodup := h.nodup, accTid := h.accTid,
                acc := h.acc, none := h.none, work := ⟨he, hcl, pre, hpre, hclosed⟩ }
      · refine { len := h.len, ok := fun t c y h1 h2 => (h.ok t c y h1 h2).other (fun a b => ⟨a, b⟩) id rfl,
                 reg := h.reg, acked := h.acked, nodup := h.nodup, accTid := h.accTid, acc := h.acc, none := ?_,
                 work := ⟨he, hcl, pre ++ [c], by simp [hpre], ?_⟩ }
        · intro c' hc'
          have hne : c' ≠ c := by rintro rfl; exact hc' (by simp only [hpre]; simp)
          have := h.none c' hc'
          simpa [received, upd, hne] using this
        · intro hn c'
          have := hclosed hn c'
          by_cases hc : c' = c
          · subst hc
            simp only [upd, if_pos, List.mem_append, List.mem_singleton, or_true]
            omega
          · simp [upd, this, hc]
  | stopped => exact h

theorem inv_step (cap : Nat → Nat) {s : State ε} (a : Act ε) (h : Inv s) : Inv (step cap s a) := by
  unfold step
  split_ifs with hp
  · exact h
  cases a with
  | call c =>
    have mono : ∀ (t : Nat) d, s.calls[t]? = some d → (s.calls ++ [c])[t]? = some d := by
      intro t d hd
      rw [List.getElem?_append_left (List.getElem?_eq_some_iff.1 hd).1]; exact hd
    have fresh : ∀ t, t ∈ s.acked ∨ t ∈ s.regChan.map Prod.fst → t < s.calls.length := by
      rintro t (ht | ht)
      · obtain ⟨c, -, hc⟩ := forall₂_mem' h.acked ht
        exact (List.getElem?_eq_some_iff.1 hc).1
      · obtain ⟨x, hx, rfl⟩ := List.mem_map.1 ht
        exact (List.getElem?_eq_some_iff.1 (h.reg x hx)).1
    refine { len := by simp [h.len], ok := ?_, reg := fun x hx => mono _ _ (h.reg x hx),
             acked := forall₂_calls mono h.acked, nodup := h.nodup, accTid := ?_, acc := h.acc, none := h.none,
             work := h.work }
    · intro t call th h1 h2
      simp only at h1 h2
      rcases Nat.lt_or_ge t s.calls.length with hl | hl
      · rw [List.getElem?_append_left hl] at h1
        rw [List.getElem?_append_left (by rw [← h.len]; exact hl)] at h2
        exact (h.ok t call th h1 h2).other (fun a b => ⟨a, b⟩) id rfl
      · have hl' := (List.getElem?_eq_some_iff.1 h1).1
        simp only [List.length_append, List.length_singleton] at hl'
        have ht : t = s.calls.length := by omega
        have h1' : call = c := by rw [ht] at h1; simpa using h1.symm
        have h2' : th = c.start := by rw [ht, h.len] at h2; simpa using h2.symm
        subst h1' h2'
        have hn1 : t ∉ s.acked := fun hx => absurd (fresh t (Or.inl hx)) (by omega)
        have hn2 : t ∉ s.regChan.map Prod.fst := fun hx => absurd (fresh t (Or.inr hx)) (by omega)
        cases call with
        | add c => exact ⟨rfl, hn2, hn1⟩
        | post e =>
          refine ⟨rfl, ?_⟩
          intro hx0
          have hx1 : t ∈ s.accepted.map Prod.fst := hx0
          obtain ⟨x, hx, rfl⟩ := List.mem_map.1 hx1
          have := h.accTid x hx
          have := h.len
          omega
        | close => rfl
    · intro x hx
      have := h.accTid x hx
      simp; omega
  | step t =>
    simp only
    cases ht : s.threads[t]? with
    | none => exact h
    | some th => exact thread_inv ht h
  | work first => exact worker_inv cap first h
  | take c =>
    simp only
    cases hb : s.buf c with
    | nil => exact h
    | cons e rest =>
      refine { len := h.len, ok := fun t c y h1 h2 => (h.ok t c y h1 h2).other (fun a b => ⟨a, b⟩) id rfl,
               reg := h.reg, acked := h.acked, nodup := h.nodup, accTid := h.accTid, acc := h.acc, none := ?_,
               work := h.work }
      intro c' hc'
      have := h.none c' hc'
      by_cases hne : c' = c
      · subst hne
        simp [received, hb] at this
      · simpa [received, upd, hne] using this

theorem inv_run (cap : Nat → Nat) (acts : List (Act ε)) : Inv (run cap acts) := by
  induction acts using List.reverseRecOn with
  | nil => exact inv_init
  | append_singleton acts a ih => rw [run_append]; exact inv_step cap a ih

/-! ## What a listener has received -/

/-- Channel `c` is registered, and all the events taken up after the first `k` have been sent to it (except the one just
being passed on, if it is not yet its turn). -/
def Reg (s : State ε) (c k : Nat) : Prop :=
  c ∈ s.listeners ∧
  match s.worker with
  | .sending e rest => ∃ p, processed s = p ++ [e] ∧ k ≤ p.length ∧
      received s c = if c ∈ rest then p.drop k else (p ++ [e]).drop k
  | _ => k ≤ (processed s).length ∧ received s c = (processed s).drop k

theorem Reg.le {s : State ε} {c k : Nat} (h : Reg s c k) : k ≤ (processed s).length := by
  obtain ⟨-, h⟩ := h
  split at h
  · obtain ⟨p, hp, hk, -⟩ := h; rw [hp]; simp; omega
  · exact h.1

theorem Reg.congr {s s' : State ε} {c k : Nat} (h : Reg s c k) (h1 : s'.listeners = s.listeners)
    (h2 : s'.worker = s.worker) (h3 : processed s' = processed s) (h4 : received s' c = received s c) : Reg s' c k := by
  unfold Reg at h ⊢
  rw [h1, h2, h3, h4]; exact h

theorem processed_post {s : State ε} (h : Inv s) (he : s.evChan = []) (x : Nat × ε) {X : State ε}
    (h1 : X.accepted = s.accepted ++ [x]) (h2 : X.evChan = [x.2]) : processed X = processed s := by
  apply processed_eq
  have := h.acc
  rw [he, List.append_nil] at this
  rw [h1, h2, List.map_append, this]; rfl

theorem reg_thread {s : State ε} {t c k : Nat} {th : Thread ε} (h : Inv s) (hr : Reg s c k) :
    Reg (threadStep s t th) c k := by
  cases th with
  | adding c' => simp only [threadStep]; split_ifs; exacts [hr.congr rfl rfl rfl rfl, hr]
  | waiting c' => simp only [threadStep]; split_ifs; exacts [hr.congr rfl rfl rfl rfl, hr]
  | posting e =>
    simp only [threadStep]
    split_ifs with h1 h2
    · exact hr.congr rfl rfl rfl rfl
    · have he : s.evChan = [] := List.length_eq_zero_iff.1 (by omega)
      exact hr.congr rfl rfl (processed_post h he (t, e) rfl (by simp [he])) rfl
    · exact hr
  | closing => simp only [threadStep]; split_ifs <;> exact hr.congr rfl rfl rfl rfl
  | returned => exact hr

theorem received_append {s : State ε} {c : Nat} {e : ε} {X : State ε} (h1 : X.buf = upd s.buf c (s.buf c ++ [e]))
    (h2 : X.taken = s.taken) (c' : Nat) : received X c' = received s c' ++ (if c' = c then [e] else []) := by
  unfold received
  rw [h1, h2]
  by_cases hc : c' = c
  · subst hc; simp [upd]
  · simp [upd, hc]

theorem reg_event {s : State ε} {c k : Nat} (h : Inv s) (hw : s.worker = .idle) (hr : Reg s c k) :
    Reg (takeEvent s) c k := by
  obtain ⟨hc, hr⟩ := hr
  rw [hw] at hr
  obtain ⟨hk, hrec⟩ := hr
  unfold takeEvent
  split
  · rename_i e rest he
    refine ⟨hc, processed s, ?_, hk, ?_⟩
    · apply processed_eq
      simp only
      rw [h.acc, he]; simp
    · simp only [if_pos hc]
      exact hrec
  · split_ifs
    · exact ⟨hc, hk, hrec⟩
    · refine ⟨hc, ?_⟩
      rw [hw]
      exact ⟨hk, hrec⟩

theorem reg_takeReg {s : State ε} {c k : Nat} (hr : Reg s c k) : Reg (takeReg s) c k := by
  unfold takeReg
  split
  · exact hr
  · obtain ⟨hc, hr⟩ := hr
    exact ⟨by simp [hc], hr⟩

theorem reg_worker (cap : Nat → Nat) {s : State ε} {c k : Nat} (first : Bool) (h : Inv s) (hn : s.listeners.Nodup)
    (hr : Reg s c k) : Reg (workerStep cap s first) c k := by
  have hwork := h.work
  unfold workerStep
  cases hw : s.worker with
  | idle =>
    simp only
    split_ifs
    · exact reg_event h hw hr
    · exact reg_takeReg hr
    · exact reg_takeReg hr
    · exact reg_event h hw hr
  | sending e rest =>
    rw [hw] at hwork
    obtain ⟨-, ⟨pre, hpre⟩, -⟩ := hwork
    obtain ⟨hc, hr'⟩ := hr
    have hr0 := hr'
    rw [hw] at hr'
    obtain ⟨p, hp, hk, hrec⟩ := hr'
    cases rest with
    | nil =>
      refine ⟨hc, ?_, ?_⟩
      · show k ≤ (processed s).length
        rw [hp]; simp; omega
      · show received s c = (processed s).drop k
        rw [hp, hrec]; simp
    | cons c' rest =>
      simp only
      split_ifs with h1 h2
      · exact Reg.congr (s := s) ⟨hc, hr0⟩ rfl hw.symm rfl rfl
      · have hnr : c' ∉ rest := by
          rw [hpre] at hn
          have := (List.nodup_append.1 hn).2.1
          exact (List.nodup_cons.1 this).1
        refine ⟨hc, p, hp, hk, ?_⟩
        rw [received_append (s := s) (c := c') (e := e)
          (X := { s with buf := upd s.buf c' (s.buf c' ++ [e]), worker := .sending e rest }) rfl rfl c, hrec]
        by_cases hcc : c = c'
        · subst hcc
          simp only [List.mem_cons, true_or, if_true, if_neg hnr]
          rw [List.drop_append_of_le_length hk]
        · simp only [List.mem_cons, hcc, false_or, if_false, List.append_nil]
      · exact ⟨hc, hr0⟩
  | closing rest =>
    obtain ⟨hc, hr'⟩ := hr
    rw [hw] at hr'
    cases rest with
    | nil => exact ⟨hc, hr'⟩
    | cons c' rest =>
      simp only
      split_ifs
      · exact Reg.congr (s := s) ⟨hc, by rw [hw]; exact hr'⟩ rfl hw.symm rfl rfl
      · exact ⟨hc, hr'⟩
  | stopped => exact hr

theorem reg_step (cap : Nat → Nat) {s : State ε} {c k : Nat} (a : Act ε) (h : Inv s) (hn : s.listeners.Nodup)
    (hr : Reg s c k) : Reg (step cap s a) c k := by
  unfold step
  split_ifs
  · exact hr
  cases a with
  | call cl => exact hr.congr rfl rfl rfl rfl
  | step t =>
    simp only
    cases ht : s.threads[t]? with
    | none => exact hr
    | some th => exact reg_thread h hr
  | work first => exact reg_worker cap first h hn hr
  | take c' =>
    simp only
    cases hb : s.buf c' with
    | nil => exact hr
    | cons e rest =>
      refine hr.congr rfl rfl rfl ?_
      unfold received
      by_cases hc : c = c'
      · subst hc; simp [upd, hb]
      · simp [upd, hc]

/-- Steps never change the calls made before. -/
theorem calls_step (cap : Nat → Nat) (s : State ε) (a : Act ε) :
    s.calls <+: (step cap s a).calls := by
  unfold step
  split_ifs
  · exact List.prefix_refl _
  cases a with
  | call c => exact List.prefix_append _ _
  | step t =>
    simp only
    cases ht : s.threads[t]? with
    | none => exact List.prefix_refl _
    | some th =>
      cases th <;> simp only [threadStep] <;> (try split_ifs) <;> exact List.prefix_refl _
  | work first =>
    simp only [workerStep, takeReg, takeEvent]
    cases s.worker with
    | idle => simp only; split_ifs <;> (try split) <;> (try split_ifs) <;> exact List.prefix_refl _
    | sending e rest => cases rest <;> simp only <;> (try split_ifs) <;> exact List.prefix_refl _
    | closing rest => cases rest <;> simp only <;> (try split_ifs) <;> exact List.prefix_refl _
    | stopped => exact List.prefix_refl _
  | take c => simp only; split <;> exact List.prefix_refl _

theorem distinct_prefix {l l' : List (Call ε)} (h : l <+: l') (hd : Distinct l') : Distinct l := by
  obtain ⟨x, rfl⟩ := h
  intro t t' c h1 h2
  have g : ∀ (t : Nat) d, l[t]? = some d → (l ++ x)[t]? = some d := by
    intro t d hd
    rw [List.getElem?_append_left (List.getElem?_eq_some_iff.1 hd).1]; exact hd
  exact hd t t' c (g _ _ h1) (g _ _ h2)

theorem calls_foldl (cap : Nat → Nat) (acts : List (Act ε)) (s : State ε) :
    s.calls <+: (acts.foldl (step cap) s).calls := by
  induction acts generalizing s with
  | nil => exact List.prefix_refl _
  | cons a acts ih => exact (calls_step cap s a).trans (ih _)

theorem reg_foldl (cap : Nat → Nat) (acts : List (Act ε)) {s : State ε} {c k : Nat} (h : Inv s)
    (hd : Distinct (acts.foldl (step cap) s).calls) (hr : Reg s c k) : Reg (acts.foldl (step cap) s) c k := by
  induction acts generalizing s with
  | nil => exact hr
  | cons a acts ih =>
    refine ih (inv_step cap a h) hd ?_
    refine reg_step cap a h ?_ hr
    exact listeners_nodup h (distinct_prefix ((calls_step cap s a).trans (calls_foldl cap acts _)) hd)

/-- The goroutine never goes back. -/
theorem processed_step (cap : Nat → Nat) {s : State ε} (a : Act ε) (h : Inv s) :
    (processed s).length ≤ (processed (step cap s a)).length := by
  have h1 := processed_length h
  have h2 := processed_length (inv_step cap a h)
  suffices hs : (step cap s a).evChan.length + s.accepted.length ≤ (step cap s a).accepted.length + s.evChan.length by
    omega
  clear h1 h2
  unfold step
  split_ifs
  · omega
  cases a with
  | call c => simp only; omega
  | step t =>
    simp only
    cases ht : s.threads[t]? with
    | none => simp only; omega
    | some th =>
      cases th <;> simp only [threadStep] <;> (try split_ifs) <;>
        (try simp only [List.length_append, List.length_singleton]) <;> omega
  | work first =>
    simp only [workerStep, takeReg, takeEvent]
    cases s.worker with
    | idle =>
      simp only; split_ifs <;> (try split) <;> (try split_ifs) <;> (try simp only [List.length_cons, *]) <;>
        (try simp only [List.length_nil]) <;> omega
    | sending e rest => cases rest <;> simp only <;> (try split_ifs) <;> (try simp only) <;> omega
    | closing rest => cases rest <;> simp only <;> (try split_ifs) <;> (try simp only) <;> omega
    | stopped => simp only; omega
  | take c => simp only; split <;> (try simp only) <;> omega

/-- The event channel has room for one. -/
theorem evChan_le (cap : Nat → Nat) (acts : List (Act ε)) : (run cap acts).evChan.length ≤ 1 := by
  induction acts using List.reverseRecOn with
  | nil => simp [run]
  | append_singleton acts a ih =>
    rw [run_append]
    generalize run cap acts = s at *
    unfold step
    split_ifs
    · exact ih
    cases a with
    | call c => exact ih
    | step t =>
      simp only
      cases ht : s.threads[t]? with
      | none => exact ih
      | some th =>
        cases th <;> simp only [threadStep] <;> (try split_ifs) <;>
          (try simp only [List.length_append, List.length_singleton]) <;> omega
    | work first =>
      simp only [workerStep, takeReg, takeEvent]
      cases s.worker with
      | idle =>
        simp only; split_ifs <;> (try split) <;> (try split_ifs) <;> (try simp only [List.length_cons, *] at ih ⊢) <;>
          (try simp only [List.length_nil]) <;> omega
      | sending e rest => cases rest <;> simp only <;> (try split_ifs) <;> exact ih
      | closing rest => cases rest <;> simp only <;> (try split_ifs) <;> exact ih
      | stopped => exact ih
    | take c => simp only; split <;> exact ih

/-- Every registered channel has a place where it starts. -/
theorem reg_exists (cap : Nat → Nat) (acts0 acts : List (Act ε)) (hd : Distinct (run cap (acts0 ++ acts)).calls)
    (c : Nat) (hc0 : c ∉ (run cap acts0).listeners) (hc : c ∈ (run cap (acts0 ++ acts)).listeners) :
    ∃ k, (processed (run cap acts0)).length ≤ k ∧ Reg (run cap (acts0 ++ acts)) c k := by
  induction acts using List.reverseRecOn with
  | nil => rw [List.append_nil] at hc; exact absurd hc hc0
  | append_singleton acts a ih =>
    rw [← List.append_assoc, run_append] at hc hd ⊢
    have hinv := inv_run cap (acts0 ++ acts)
    have hmono : (processed (run cap acts0)).length ≤ (processed (run cap (acts0 ++ acts))).length := by
      clear ih hd hc hinv
      induction acts using List.reverseRecOn with
      | nil => rw [List.append_nil]; exact Nat.le_refl _
      | append_singleton acts a ih =>
        rw [← List.append_assoc, run_append]
        exact Nat.le_trans ih (processed_step cap a (inv_run cap _))
    have hd' := distinct_prefix (calls_step cap _ a) hd
    by_cases hm : c ∈ (run cap (acts0 ++ acts)).listeners
    · obtain ⟨k, hle, hk⟩ := ih hd' hm
      exact ⟨k, hle, reg_step cap a hinv (listeners_nodup hinv hd') hk⟩
    · generalize run cap (acts0 ++ acts) = s at *
      generalize (processed (run cap acts0)).length = n at *
      have hnone := (hinv.none c hm).1
      unfold step at hc ⊢
      split_ifs at hc ⊢ with hp
      · exact absurd hc hm
      cases a with
      | call x => exact absurd hc hm
      | step t =>
        simp only at hc
        cases ht : s.threads[t]? with
        | none => rw [ht] at hc; exact absurd hc hm
        | some th =>
          rw [ht] at hc
          exfalso
          apply hm
          cases th <;> simp only [threadStep] at hc <;> (try split_ifs at hc) <;> exact hc
      | work first =>
        have key : ∀ X : State ε, X.listeners = s.listeners → c ∈ X.listeners → ∃ k, n ≤ k ∧ Reg X c k :=
          fun X h1 h2 => absurd (h1 ▸ h2) hm
        have kreg : s.worker = .idle → c ∈ (takeReg s).listeners → ∃ k, n ≤ k ∧ Reg (takeReg s) c k := by
          intro hw hc
          have hw' : (takeReg s).worker = .idle := by unfold takeReg; split <;> exact hw
          have hp' : processed (takeReg s) = processed s := by unfold takeReg; split <;> rfl
          have hrec : received (takeReg s) c = received s c := by unfold takeReg; split <;> rfl
          refine ⟨(processed s).length, hmono, hc, ?_⟩
          rw [hw', hp', hrec]
          exact ⟨Nat.le_refl _, by rw [hnone]; simp⟩
        have kev : c ∈ (takeEvent s).listeners → ∃ k, n ≤ k ∧ Reg (takeEvent s) c k := by
          intro hc
          refine key _ ?_ hc
          unfold takeEvent; split
          · rfl
          · split_ifs <;> rfl
        simp only [workerStep] at hc ⊢
        cases hw : s.worker with
        | idle =>
          rw [hw] at hc
          simp only at hc ⊢
          split_ifs at hc ⊢
          · exact kev hc
          · exact kreg hw hc
          · exact kreg hw hc
          · exact kev hc
        | sending e rest =>
          rw [hw] at hc
          cases rest with
          | nil => exact key _ rfl hc
          | cons c' rest => simp only at hc ⊢; split_ifs at hc ⊢ <;> exact key _ rfl hc
        | closing rest =>
          rw [hw] at hc
          cases rest with
          | nil => exact key _ rfl hc
          | cons c' rest => simp only at hc ⊢; split_ifs at hc ⊢ <;> exact key _ rfl hc
        | stopped => rw [hw] at hc; exact key _ rfl hc
      | take c' =>
        simp only at hc
        exfalso
        apply hm
        split at hc <;> exact hc

/-! ## C59 -/

/-- C59: take any history in which no channel is registered twice, and cut it anywhere before `AddListener(c)` is called and
anywhere after it has returned. There is a number `k` of events, at least those sent by the first cut (but for the one
that may still be waiting to be taken up) and at most those sent by the second, such that whatever happens afterwards the channel has been
sent exactly the events after the `k`-th, in order, none missing and none twice: a prefix of them while the goroutine
still has something to pass on, and all of them once it has not, in particular when the channel has been closed; and it
is closed at most once. -/
theorem C59_later_events (cap : Nat → Nat) (acts0 acts1 acts' : List (Act ε)) (t c : Nat)
    (hd : Distinct (run cap (acts0 ++ acts1 ++ acts')).calls)
    (h0 : (run cap acts0).calls.length ≤ t)
    (hc : (run cap (acts0 ++ acts1)).calls[t]? = some (.add c))
    (ht : (run cap (acts0 ++ acts1)).threads[t]? = some .returned) :
    ∃ k ≤ (run cap (acts0 ++ acts1)).accepted.length, (run cap acts0).accepted.length ≤ k + 1 ∧
      let s := run cap (acts0 ++ acts1 ++ acts')
      received s c <+: (s.accepted.map Prod.snd).drop k ∧
      (Quiet s → received s c = (s.accepted.map Prod.snd).drop k) ∧
      (0 < s.closed c → received s c = (s.accepted.map Prod.snd).drop k ∧ s.closed c = 1) ∧
      (s.worker = .stopped → s.closed c = 1) := by
  have hi := inv_run cap (acts0 ++ acts1)
  have hi' := inv_run cap (acts0 ++ acts1 ++ acts')
  have hack : t ∈ (run cap (acts0 ++ acts1)).acked := hi.ok t _ _ hc ht
  obtain ⟨c', hc', hcc⟩ := forall₂_mem' hi.acked hack
  have hcc' : c' = c := by rw [hc] at hcc; simpa using hcc.symm
  subst hcc'
  have hd0 : Distinct (run cap (acts0 ++ acts1)).calls := by
    refine distinct_prefix ?_ hd
    rw [run_append' cap (acts0 ++ acts1) acts']; exact calls_foldl cap acts' _
  have hi0 := inv_run cap acts0
  have hc0 : c' ∉ (run cap acts0).listeners := by
    intro hm
    obtain ⟨t', ht', hcall⟩ := forall₂_mem hi0.acked hm
    have hlt := (List.getElem?_eq_some_iff.1 hcall).1
    have hpre : (run cap acts0).calls <+: (run cap (acts0 ++ acts1)).calls := by
      rw [run_append']; exact calls_foldl cap acts1 _
    obtain ⟨x, hx⟩ := hpre
    have := hd0 t' t c' (by rw [← hx, List.getElem?_append_left hlt]; exact hcall) hc
    omega
  obtain ⟨k, hk0, hk⟩ := reg_exists cap acts0 acts1 hd0 c' hc0 hc'
  have hk0' : (run cap acts0).accepted.length ≤ k + 1 := by
    have := processed_length hi0; have := evChan_le cap acts0; omega
  have hkle : k ≤ (run cap (acts0 ++ acts1)).accepted.length := by
    have := hk.le; have := processed_length hi; omega
  refine ⟨k, hkle, hk0', ?_⟩
  have hreg : Reg (run cap (acts0 ++ acts1 ++ acts')) c' k := by
    rw [run_append'] at hd ⊢
    exact reg_foldl cap acts' hi hd hk
  have hnd := listeners_nodup hi' hd
  generalize run cap (acts0 ++ acts1 ++ acts') = s at *
  have hle := hreg.le
  have hacc : (s.accepted.map Prod.snd).drop k = (processed s).drop k ++ s.evChan := by
    rw [hi'.acc, List.drop_append_of_le_length hle]
  obtain ⟨hmem, hr⟩ := hreg
  simp only
  have hwork := hi'.work
  have other : (∀ e rest, s.worker ≠ .sending e rest) → received s c' = (processed s).drop k := by
    intro hne
    cases hw : s.worker with
    | sending e rest => exact absurd hw (hne e rest)
    | idle => rw [hw] at hr; exact hr.2
    | closing rest => rw [hw] at hr; exact hr.2
    | stopped => rw [hw] at hr; exact hr.2
  refine ⟨?_, ?_, ?_, ?_⟩
  · rw [hacc]
    cases hw : s.worker with
    | sending e rest =>
      rw [hw] at hr
      obtain ⟨p, hp, hkp, hrec⟩ := hr
      rw [hrec, hp]
      split_ifs
      · rw [List.drop_append_of_le_length hkp]
        exact ⟨[e] ++ s.evChan, by simp⟩
      · exact List.prefix_append _ _
    | idle => rw [other (by simp [hw])]; exact List.prefix_append _ _
    | closing rest => rw [other (by simp [hw])]; exact List.prefix_append _ _
    | stopped => rw [other (by simp [hw])]; exact List.prefix_append _ _
  · rintro ⟨he, hw⟩
    rw [hacc, he, List.append_nil]
    apply other
    intro e rest hs
    rw [hs] at hw
    simp at hw
  · intro hcl
    cases hw : s.worker with
    | idle => rw [hw] at hwork; have := hwork c'; omega
    | sending e rest => rw [hw] at hwork; have := hwork.1 c'; omega
    | closing rest =>
      rw [hw] at hwork
      obtain ⟨he, -, pre, hpre, hclosed⟩ := hwork
      refine ⟨by rw [hacc, he, List.append_nil]; exact other (by simp [hw]), ?_⟩
      have := hclosed hnd c'
      split_ifs at this <;> omega
    | stopped =>
      rw [hw] at hwork
      obtain ⟨he, -, hclosed⟩ := hwork
      refine ⟨by rw [hacc, he, List.append_nil]; exact other (by simp [hw]), ?_⟩
      have := hclosed hnd c'
      split_ifs at this <;> omega
  · intro hw
    rw [hw] at hwork
    have := hwork.2.2 hnd c'
    rw [if_pos hmem] at this
    exact this

theorem accepted_step (cap : Nat → Nat) (s : State ε) (a : Act ε) : s.accepted <+: (step cap s a).accepted := by
  unfold step
  split_ifs
  · exact List.prefix_refl _
  cases a with
  | call c => exact List.prefix_refl _
  | step t =>
    simp only
    cases ht : s.threads[t]? with
    | none => exact List.prefix_refl _
    | some th =>
      cases th <;> simp only [threadStep] <;> (try split_ifs) <;>
        first
        | exact List.prefix_refl _
        | exact List.prefix_append _ _
  | work first =>
    simp only [workerStep, takeReg, takeEvent]
    cases s.worker with
    | idle => simp only; split_ifs <;> (try split) <;> (try split_ifs) <;> exact List.prefix_refl _
    | sending e rest => cases rest <;> simp only <;> (try split_ifs) <;> exact List.prefix_refl _
    | closing rest => cases rest <;> simp only <;> (try split_ifs) <;> exact List.prefix_refl _
    | stopped => exact List.prefix_refl _
  | take c => simp only; split <;> exact List.prefix_refl _

/-- C59: the order of the events is the order in which they were posted: an event is in the sequence exactly once, from
the time its `PostProcess` or `AddEvent` has returned, and what comes later goes behind it. -/
theorem C59_order (cap : Nat → Nat) (acts acts' : List (Act ε)) :
    (run cap acts).accepted <+: (run cap (acts ++ acts')).accepted ∧
    (∀ t e, (run cap acts).calls[t]? = some (.post e) →
      ((run cap acts).threads[t]? = some .returned →
        (run cap acts).accepted.filter (fun x => x.1 == t) = [(t, e)]) ∧
      ((run cap acts).threads[t]? = some (.posting e) → t ∉ (run cap acts).accepted.map Prod.fst)) ∧
    (∀ t, (run cap acts).calls.length ≤ t → t ∉ (run cap acts).accepted.map Prod.fst) := by
  have hi := inv_run cap acts
  refine ⟨?_, ?_, ?_⟩
  · rw [run_append']
    generalize run cap acts = s
    induction acts' generalizing s with
    | nil => exact List.prefix_refl _
    | cons a acts' ih => exact (accepted_step cap s a).trans (ih _)
  · intro t e hc
    exact ⟨fun ht => hi.ok t _ _ hc ht, fun ht => (hi.ok t _ _ hc ht).2⟩
  · intro t ht hm
    obtain ⟨x, hx, rfl⟩ := List.mem_map.1 hm
    have := hi.accTid x hx
    have := hi.len
    omega

/-- Two listeners, one registered between the two events (but before the first is taken up), and a close. -/
def sampleActs : List (Act Nat) :=
  [.call (.add 10), .step 0, .work true, .step 0, .call (.post 7), .step 1, .work false, .call (.add 20), .step 2,
   .work true, .work true, .call (.post 8), .work true, .step 2, .step 3, .work true, .work true, .work true, .take 10,
   .work true, .work true, .call .close, .step 4, .work true, .work true, .work true, .work true,
   .work true]

example : let s := run (fun _ => 1) sampleActs
    s.panicked = false ∧ s.worker = .stopped ∧ received s 10 = [7, 8] ∧ received s 20 = [8] ∧ s.closed 10 = 1 ∧
    s.closed 20 = 1 ∧ s.accepted = [(1, 7), (3, 8)] ∧ s.threads[2]? = some .returned ∧
    s.calls = [.add 10, .post 7, .add 20, .post 8, .close] := by decide

/-- The hypotheses of `C59_later_events` for the second listener of that history: here `k` is 1. -/
example : (run (fun _ => 1) (sampleActs.take 7)).calls.length ≤ 2 ∧
    (run (fun _ => 1) (sampleActs.take 14)).calls[2]? = some (.add 20) ∧
    (run (fun _ => 1) (sampleActs.take 14)).threads[2]? = some .returned ∧
    (run (fun _ => 1) (sampleActs.take 14)).accepted = [(1, 7)] ∧
    (run (fun _ => 1) (sampleActs.take 7)).accepted = [(1, 7)] := by decide

example : Distinct (run (fun _ => 1) sampleActs).calls := by
  have : (run (fun _ => 1) sampleActs).calls = [.add 10, .post 7, .add 20, .post 8, .close] := by decide
  rw [this]
  intro t t' c h1 h2
  have e1 : (t = 0 ∧ c = 10) ∨ (t = 2 ∧ c = 20) := by
    match t, h1 with
    | 0, h1 => left; simpa [eq_comm] using h1
    | 2, h1 => right; simpa [eq_comm] using h1
    | 1, h1 => simp at h1
    | 3, h1 => simp at h1
    | 4, h1 => simp at h1
    | n + 5, h1 => simp at h1
  have e2 : (t' = 0 ∧ c = 10) ∨ (t' = 2 ∧ c = 20) := by
    match t', h2 with
    | 0, h1 => left; simpa [eq_comm] using h1
    | 2, h1 => right; simpa [eq_comm] using h1
    | 1, h1 => simp at h1
    | 3, h1 => simp at h1
    | 4, h1 => simp at h1
    | n + 5, h1 => simp at h1
  omega

/-! ### What is not promised -/

/-- A registration that comes too late: once the goroutine has stopped, `AddListener` never returns, whatever happens. -/
theorem C59_too_late (cap : Nat → Nat) (acts acts' : List (Act ε)) (t c : Nat)
    (hw : (run cap acts).worker = .stopped)
    (ht : (run cap acts).threads[t]? = some (.adding c)) :
    (run cap (acts ++ acts')).threads[t]? = some (.adding c) ∨
    (run cap (acts ++ acts')).threads[t]? = some (.waiting c) := by
  have hi := inv_run cap acts
  have htl := (List.getElem?_eq_some_iff.1 ht).1
  obtain ⟨call, hc⟩ : ∃ x, (run cap acts).calls[t]? = some x :=
    ⟨_, List.getElem?_eq_getElem (by rw [hi.len]; exact htl)⟩
  have hna : t ∉ (run cap acts).acked := (hi.ok t _ _ hc ht).2.2
  rw [run_append']
  have : ∀ s : State ε, s.worker = .stopped → t ∉ s.acked →
      (s.threads[t]? = some (.adding c) ∨ s.threads[t]? = some (.waiting c)) →
      ((acts'.foldl (step cap) s).threads[t]? = some (.adding c) ∨
        (acts'.foldl (step cap) s).threads[t]? = some (.waiting c)) := by
    induction acts' with
    | nil => intro s _ _ h; exact h
    | cons a acts' ih =>
      intro s hw hna hth
      have keep : ∀ X : State ε, X.worker = .stopped → X.acked = s.acked →
          (X.threads[t]? = some (.adding c) ∨ X.threads[t]? = some (.waiting c)) →
          ((acts'.foldl (step cap) X).threads[t]? = some (.adding c) ∨
            (acts'.foldl (step cap) X).threads[t]? = some (.waiting c)) :=
        fun X h1 h2 h3 => ih X h1 (by rw [h2]; exact hna) h3
      have other : ∀ (t' : Nat) (x : Thread ε), t' ≠ t → (s.threads.set t' x)[t]? = s.threads[t]? := by
        intro t' x hne; simp [List.getElem?_set, hne]
      simp only [List.foldl_cons]
      have hstep : step cap s a = s ∨ step cap s a ≠ s := em _
      unfold step
      split_ifs with hp
      · exact ih s hw hna hth
      cases a with
      | call x =>
        refine keep _ hw rfl ?_
        rcases hth with h | h
        · left; simp only; rw [List.getElem?_append_left (List.getElem?_eq_some_iff.1 h).1]; exact h
        · right; simp only; rw [List.getElem?_append_left (List.getElem?_eq_some_iff.1 h).1]; exact h
      | step t' =>
        simp only
        cases ht' : s.threads[t']? with
        | none => exact ih s hw hna hth
        | some th =>
          by_cases hne : t' = t
          · subst hne
            have hlt := (List.getElem?_eq_some_iff.1 ht').1
            rcases hth with h | h
            · rw [ht'] at h; cases h
              simp only [threadStep]
              split_ifs
              · exact keep _ hw rfl (Or.inr (by simp [hlt]))
              · exact ih s hw hna (Or.inl ht')
            · rw [ht'] at h; cases h
              simp only [threadStep]
              rw [if_neg hna]
              exact ih s hw hna (Or.inr ht')
          · cases th with
            | adding c' =>
              simp only [threadStep]; split_ifs
              · exact keep _ hw rfl (by simp only; rw [other _ _ hne]; exact hth)
              · exact ih s hw hna hth
            | waiting c' =>
              simp only [threadStep]; split_ifs
              · exact keep _ hw rfl (by simp only; rw [other _ _ hne]; exact hth)
              · exact ih s hw hna hth
            | posting e =>
              simp only [threadStep]; split_ifs
              · exact keep _ hw rfl hth
              · exact keep _ hw rfl (by simp only; rw [other _ _ hne]; exact hth)
              · exact ih s hw hna hth
            | closing =>
              simp only [threadStep]; split_ifs
              · exact keep _ hw rfl hth
              · exact keep _ hw rfl (by simp only; rw [other _ _ hne]; exact hth)
            | returned => exact ih s hw hna hth
      | work first =>
        have : workerStep cap s first = s := by unfold workerStep; rw [hw]
        simp only
        rw [this]
        exact ih s hw hna hth
      | take c' =>
        simp only
        split
        · exact ih s hw hna hth
        · exact keep _ hw rfl hth
  exact this _ hw hna (Or.inl ht)

/-- A channel registered twice gets everything twice, and closing crashes the process. -/
theorem C59_registered_twice : ∃ acts : List (Act Nat),
    (run (fun _ => 9) acts).calls = [.add 10, .add 10, .post 7, .close] ∧
    received (run (fun _ => 9) acts) 10 = [7, 7] ∧ (run (fun _ => 9) acts).panicked = true :=
  ⟨[.call (.add 10), .call (.add 10), .call (.post 7), .call .close, .step 0, .work true, .step 1, .work true, .step 2,
    .step 3, .work true, .work true, .work true, .work true, .work true, .work true, .work true],
   by decide, by decide, by decide⟩

/-- One listener that does not read holds up everybody: with it, no event ever gets through to the listeners registered
after it. -/
theorem C59_slow_listener : ∃ acts : List (Act Nat), ∀ n : Nat,
    let s := run (fun _ => 1) (acts ++ List.replicate n (.work true))
    s.threads.all (fun th => th == .returned) = true ∧ s.accepted = [(2, 7), (3, 8)] ∧ s.evChan = [] ∧
    received s 20 = [7] := by
  refine ⟨[.call (.add 10), .call (.add 20), .call (.post 7), .call (.post 8), .step 0, .work true, .step 1, .work true,
    .step 0, .step 1, .step 2, .work true, .work true, .work true, .work true, .step 3, .work true], ?_⟩
  have key : ∀ s : State Nat, step (fun _ => 1) s (.work true) = s → ∀ n,
      (List.replicate n (Act.work true)).foldl (step fun _ => 1) s = s := by
    intro s hs n
    induction n with
    | zero => rfl
    | succ n ih => rw [List.replicate_succ, List.foldl_cons, hs, ih]
  intro n
  rw [run_append']
  rw [key _ ?_ n]
  · decide
  · rfl

/-! ## C60 -/

theorem addAll_next (names : List String) : (addAll names).next = names.length + 1 := by
  unfold addAll
  have : ∀ m : Manager, (names.foldl (fun m n => (m.add n).2) m).next = m.next + names.length := by
    induction names with
    | nil => intro m; rfl
    | cons a l ih => intro m; simp only [List.foldl_cons, ih, List.length_cons]; simp only [Manager.add]; omega
  rw [this]; simp [newManager, Manager.add]; omega

theorem addAll_append (names : List String) (n : String) : addAll (names ++ [n]) = ((addAll names).add n).2 := by
  simp [addAll]

/-- C60: after any sequence of `Add` calls, `Get` succeeds exactly for the names added (and the default one), and returns
the queue that the last `Add` of that name returned. Here queue `i + 1` is the one made by the `i`-th `Add`, and queue 0
the default one. -/
theorem C60_get_partial (names : List String) (name : String) (q : Nat) :
    (addAll names).get name = some q ↔
      (∃ i, q = i + 1 ∧ names[i]? = some name ∧ ∀ j, i < j → names[j]? ≠ some name) ∨
      (q = 0 ∧ name = "default" ∧ name ∉ names) := by
  induction names using List.reverseRecOn with
  | nil =>
    simp only [addAll, List.foldl_nil, newManager, Manager.add, Manager.get]
    by_cases h : name = "default"
    · simp [h, eq_comm]
    · simp [h]
  | append_singleton names n ih =>
    rw [addAll_append]
    simp only [Manager.get, Manager.add, addAll_next] at ih ⊢
    by_cases h : name = n
    · subst h
      simp only [if_true, Option.some.injEq]
      constructor
      · rintro rfl
        left
        refine ⟨names.length, rfl, by simp, ?_⟩
        intro j hj
        rw [List.getElem?_eq_none (by simp; omega)]
        simp
      · rintro (⟨i, rfl, h1, h2⟩ | ⟨-, -, h⟩)
        · rcases Nat.lt_trichotomy i names.length with hl | hl | hl
          · exact absurd (by simp) (h2 names.length hl)
          · rw [hl]
          · rw [List.getElem?_eq_none (by simp; omega)] at h1; cases h1
        · simp at h
    · simp only [if_neg h]
      rw [ih]
      have hget : ∀ i : Nat, (names ++ [n])[i]? = some name ↔ names[i]? = some name := by
        intro i
        rcases Nat.lt_trichotomy i names.length with hl | hl | hl
        · rw [List.getElem?_append_left hl]
        · subst hl; simp; exact fun e => h e.symm
        · rw [List.getElem?_eq_none (by simp; omega), List.getElem?_eq_none (by omega)]
      simp only [hget, ne_eq, List.mem_append, List.mem_singleton, h, or_false]

/-- C60 as documented ("creates a new queue or fetches a previously created queue"): adding a name again returns the queue
it already has. -/
def AddFetches : Prop := ∀ (names : List String) (name : String) (q : Nat),
  (addAll names).get name = some q → ((addAll names).add name).1 = q

/-- It is false for every name in use: the queue is silently replaced by a new one, and whoever looks the name up from
then on gets the new one. -/
theorem C60_add_replaces (names : List String) (name : String) (q : Nat) (h : (addAll names).get name = some q) :
    ((addAll names).add name).1 ≠ q ∧ ((addAll names).add name).2.get name = some ((addAll names).add name).1 := by
  constructor
  · have hb : q < (addAll names).next := by
      rw [addAll_next]
      rcases (C60_get_partial names name q).1 h with ⟨i, rfl, hi, -⟩ | ⟨rfl, -, -⟩
      · have := (List.getElem?_eq_some_iff.1 hi).1; omega
      · omega
    simp only [Manager.add]; omega
  · simp [Manager.add, Manager.get]

theorem C60_documented_false : ¬ AddFetches := fun h =>
  (C60_add_replaces [] "default" 0 rfl).1 (h [] "default" 0 rfl)

example : (addAll ["a", "b", "a"]).get "a" = some 3 ∧ (addAll ["a", "b", "a"]).get "b" = some 2 ∧
    (addAll ["a", "b", "a"]).get "default" = some 0 ∧ (addAll ["a", "b", "a"]).get "c" = none := by decide

end Quark.Hub
