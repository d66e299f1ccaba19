import Verif.Pins.Model

/-!
# Inputs that are in use stay (C146)
-/

namespace Quark.Pins

/-! ## Specification -/

/-- Who has a reference that has not been released. -/
def Pc.holds : Pc → Bool
  | .hasRef | .ready | .open | .closing | .forgotten => true
  | .start | .failed | .done => false

/-- How many references to an input are out. -/
def held (s : State) (h : Nat) : Nat := s.tasks.countP fun x => x.hash = h ∧ x.pc.holds

/-! ## Invariant -/

/-- The cache counts the references that are out. -/
def Inv (s : State) : Prop := ∀ h, match s.cache h with
  | none => held s h = 0
  | some n => n = held s h

theorem held_goto {s : State} {i : Nat} {x : Task} (hx : s.tasks[i]? = some x) (pc : Pc) (c : Nat → Option Nat) (h : Nat) :
    held ({ s with cache := c }.goto i x pc) h + (if x.hash = h ∧ x.pc.holds then 1 else 0) =
      held s h + (if x.hash = h ∧ pc.holds then 1 else 0) := by
  obtain ⟨hlt, rfl⟩ := List.getElem?_eq_some_iff.mp hx
  unfold held State.goto
  dsimp only
  rw [List.countP_set hlt]
  have hpos : (s.tasks[i].hash = h ∧ s.tasks[i].pc.holds = true) →
      0 < s.tasks.countP fun x => x.hash = h ∧ x.pc.holds := fun hf =>
    List.countP_pos_iff.mpr ⟨_, List.getElem_mem hlt, by simpa using hf⟩
  by_cases h1 : s.tasks[i].hash = h ∧ s.tasks[i].pc.holds = true
  · have := hpos h1
    simp only [h1, and_self, if_true, decide_true, true_and]
    simp only [Bool.decide_eq_true] at this ⊢
    omega
  · rw [if_neg h1]
    simp only [h1, decide_false, Bool.false_eq_true, if_false]
    by_cases h2 : s.tasks[i].hash = h ∧ pc.holds = true
    · simp [h2]
    · simp [h2]

/-- A task moves on and neither gets nor gives up a reference. -/
theorem Inv.quiet {s : State} (hi : Inv s) {i : Nat} {x : Task} (hx : s.tasks[i]? = some x) {pc : Pc}
    (hp : pc.holds = x.pc.holds) : Inv (s.goto i x pc) := by
  intro h
  have := held_goto hx pc s.cache h
  rw [hp] at this
  have he : held (s.goto i x pc) h = held s h := Nat.add_right_cancel this
  have h1 := hi h
  simp only [State.goto] at he ⊢
  rw [he]
  exact h1

theorem Inv.get {s : State} (hi : Inv s) {i : Nat} {x : Task} (hx : s.tasks[i]? = some x) (hp : x.pc.holds = false) :
    Inv ({ s with cache := Function.update s.cache x.hash (some (held s x.hash + 1)) }.goto i x .hasRef) := by
  intro h
  have := held_goto hx .hasRef (Function.update s.cache x.hash (some (held s x.hash + 1))) h
  by_cases hh : h = x.hash
  · subst hh
    simp only [State.goto, Function.update_self]
    rw [hp, if_neg (by simp), if_pos ⟨rfl, rfl⟩] at this
    exact this.symm
  · have hne : ¬ x.hash = h := fun e => hh e.symm
    simp only [hne, false_and, if_false, Nat.add_zero] at this
    have h1 := hi h
    simp only [State.goto] at this ⊢
    rw [Function.update_of_ne hh, this]
    exact h1

theorem Inv.put {s : State} (hi : Inv s) {i : Nat} {x : Task} (hx : s.tasks[i]? = some x) (hp : x.pc.holds = true) :
    Inv ((s.put x.hash).goto i x .done) := by
  intro h
  have := held_goto hx .done (Function.update s.cache x.hash ((s.cache x.hash).map (· - 1))) h
  by_cases hh : h = x.hash
  · subst hh
    have h1 := hi x.hash
    rw [hp, if_pos ⟨rfl, rfl⟩, if_neg (by simp [Pc.holds])] at this
    simp only [State.goto, State.put, Function.update_self] at this ⊢
    cases hc : s.cache x.hash with
    | none => rw [hc] at h1; simp only [hc, Option.map_none] at this ⊢; omega
    | some n => rw [hc] at h1; simp only [hc, Option.map_some] at this ⊢; omega
  · have hne : ¬ x.hash = h := fun e => hh e.symm
    simp only [hne, false_and, if_false, Nat.add_zero] at this
    have h1 := hi h
    simp only [State.goto, State.put] at this ⊢
    rw [Function.update_of_ne hh, this]
    exact h1

theorem Inv.next {s s' : State} {a : Act} (hi : Inv s) (hs : step s a = some s') : Inv s' := by
  cases a with
  | arrive h k =>
    simp only [step, Option.some.injEq] at hs
    subst hs
    intro h'
    have := hi h'
    have he : held { s with tasks := s.tasks ++ [{ hash := h, kind := k }] } h' = held s h' := by
      simp [held, List.countP_append, Pc.holds]
    simp only at he ⊢
    rw [he]
    exact this
  | add i ok =>
    simp only [step] at hs
    split at hs
    · rename_i x hx
      split at hs
      · rename_i hp
        have hf : x.pc.holds = false := by rw [hp]; rfl
        split at hs
        · rename_i n hn
          cases hs
          have := hi x.hash
          rw [hn] at this
          simp only at this
          subst this
          exact hi.get hx hf
        · rename_i hn
          have h0 := hi x.hash
          rw [hn] at h0
          simp only at h0
          split at hs
          · cases hs
            have := hi.get hx hf
            rw [h0] at this
            exact this
          · cases hs
            exact hi.quiet hx (by rw [hf]; rfl)
      · cases hs
    · cases hs
  | setEphemeral i ok =>
    simp only [step] at hs
    split at hs
    · rename_i x hx
      split at hs
      · rename_i hp
        cases hs
        exact hi.quiet hx (by rw [hp.1]; cases ok <;> rfl)
      · cases hs
    · cases hs
  | enqueue i =>
    simp only [step] at hs
    split at hs
    · rename_i x hx
      split at hs
      · rename_i hp
        cases hs
        exact hi.quiet hx (by rcases hp with ⟨hp, -⟩ | ⟨hp, -⟩ <;> rw [hp] <;> rfl)
      · cases hs
    · cases hs
  | close i =>
    simp only [step] at hs
    split at hs
    · rename_i x hx
      split at hs
      · rename_i hp
        cases hs
        exact hi.quiet hx (by rw [hp]; rfl)
      · split at hs
        · cases hs; exact hi
        · cases hs
    · cases hs
  | release i =>
    simp only [step] at hs
    split at hs
    · rename_i x hx
      split at hs
      · rename_i hp
        cases hs
        exact hi.put hx (by rw [hp]; rfl)
      · cases hs
    · cases hs
  | answer i e =>
    simp only [step] at hs
    split at hs
    · rename_i x hx
      split at hs
      · rename_i hp
        split at hs
        · cases hs
          exact hi.quiet hx (by rw [hp.1]; rfl)
        · cases hs
          exact hi.put hx (by rw [hp.1]; rfl)
      · cases hs
    · cases hs
  | evict h =>
    simp only [step] at hs
    split at hs
    · rename_i h0
      cases hs
      intro h'
      have h1 := hi h'
      by_cases hh : h' = h
      · subst hh
        rw [h0] at h1
        simp only [Function.update_self]
        exact h1.symm
      · dsimp only
        rw [Function.update_of_ne hh]
        exact h1
    · cases hs

theorem Reach.inv {s : State} (h : Reach s) : Inv s := by
  induction h with
  | init => intro h; rfl
  | step _ hs ih => exact ih.next hs

/-! ## C146 -/

/-- C146: the reference count of an input in the cache is the number of runs and requests that have a reference, and
an input that is not in the cache is held by nobody. -/
theorem C146_count {s : State} (h : Reach s) (hash : Nat) :
    (s.cache hash = none → held s hash = 0) ∧ ∀ n, s.cache hash = some n → n = held s hash := by
  have := h.inv hash
  constructor
  · intro hc; rw [hc] at this; exact this
  · intro n hc; rw [hc] at this; exact this

/-- C146: the input of a run that has been accepted, is queued or is being graded is in the cache, and so is one that
is being sent; a cache that wants to drop it cannot, and
a runner that asks for it gets it, whether or not the grader could load it again. -/
theorem C146_input_stays {s : State} (h : Reach s) (j : Nat) (x : Task) (hx : s.tasks[j]? = some x) (ho : x.pc = .hasRef ∨ x.pc = .ready ∨ x.pc = .open) :
    (∃ n, s.cache x.hash = some (n + 1)) ∧ step s (.evict x.hash) = none ∧
      ∀ i y ok, s.tasks[i]? = some y → y.hash = x.hash → y.pc = .start →
        ∃ s', step s (.add i ok) = some s' ∧ s'.tasks[i]? = some { y with pc := .hasRef } := by
  have hi := h.inv x.hash
  have hpos : 0 < held s x.hash :=
    List.countP_pos_iff.mpr ⟨x, List.mem_of_getElem? hx, by rcases ho with ho | ho | ho <;> simp [ho, Pc.holds]⟩
  have hc : ∃ n, s.cache x.hash = some (n + 1) := by
    cases hc : s.cache x.hash with
    | none => rw [hc] at hi; simp only at hi; omega
    | some n =>
      rw [hc] at hi; simp only at hi
      exact ⟨n - 1, by congr 1; omega⟩
  refine ⟨hc, ?_, ?_⟩
  · obtain ⟨n, hc⟩ := hc
    simp [step, hc]
  · intro i y ok hy hyh hyp
    obtain ⟨n, hc⟩ := hc
    have hlt := (List.getElem?_eq_some_iff.mp hy).1
    refine ⟨{ s with cache := Function.update s.cache y.hash (some (n + 1 + 1)) }.goto i y .hasRef, ?_, ?_⟩
    · simp only [step, hy, hyp, if_true, hyh, hc]
    · simp [State.goto, hlt]

/-- C146: a run gives its reference back once. -/
theorem C146_released_once {s s' : State} (i : Nat) (x : Task) (hx : s.tasks[i]? = some x)
    (hs : step s (.release i) = some s') :
    x.pc = .closing ∧ s'.tasks[i]? = some { x with pc := .done } ∧ ∀ s'', Leads s' s'' → step s'' (.release i) = none := by
  simp only [step, hx] at hs
  split at hs
  · rename_i hp
    cases hs
    have hlt := (List.getElem?_eq_some_iff.mp hx).1
    have h1 : ((s.put x.hash).goto i x .done).tasks[i]? = some { x with pc := .done } := by
      simp [State.goto, State.put, hlt]
    refine ⟨hp, h1, ?_⟩
    intro s'' hl
    have key : s''.tasks[i]? = some { x with pc := .done } := by
      induction hl with
      | refl => exact h1
      | @step s1 a s2 _ hs ih =>
        have hset : ∀ (k : Nat) (y : Task) (pc : Pc) (c : Nat → Option Nat), s1.tasks[k]? = some y → y.pc ≠ .done →
            ({ s1 with cache := c }.goto k y pc).tasks[i]? = some { x with pc := .done } := by
          intro k y pc c hk hy
          have hne : k ≠ i := by
            rintro rfl
            rw [ih] at hk
            cases hk
            exact hy rfl
          simp only [State.goto, List.getElem?_set_ne hne]
          exact ih
        cases a with
        | arrive h k =>
          simp only [step, Option.some.injEq] at hs
          subst hs
          have hlt := (List.getElem?_eq_some_iff.mp ih).1
          simp only [List.getElem?_append_left hlt]
          exact ih
        | add k ok =>
          simp only [step] at hs
          split at hs
          · rename_i y hy
            split at hs
            · rename_i hp
              split at hs
              · cases hs; exact hset k y _ _ hy (by rw [hp]; decide)
              · split at hs
                · cases hs; exact hset k y _ _ hy (by rw [hp]; decide)
                · cases hs; exact hset k y _ s1.cache hy (by rw [hp]; decide)
            · cases hs
          · cases hs
        | setEphemeral k ok =>
          simp only [step] at hs
          split at hs
          · rename_i y hy
            split at hs
            · rename_i hp; cases hs; exact hset k y _ s1.cache hy (by rw [hp.1]; decide)
            · cases hs
          · cases hs
        | enqueue k =>
          simp only [step] at hs
          split at hs
          · rename_i y hy
            split at hs
            · rename_i hp; cases hs
              exact hset k y _ s1.cache hy (by rcases hp with ⟨hp, -⟩ | ⟨hp, -⟩ <;> rw [hp] <;> decide)
            · cases hs
          · cases hs
        | close k =>
          simp only [step] at hs
          split at hs
          · rename_i y hy
            split at hs
            · rename_i hp; cases hs; exact hset k y _ s1.cache hy (by rw [hp]; decide)
            · split at hs
              · cases hs; exact ih
              · cases hs
          · cases hs
        | release k =>
          simp only [step] at hs
          split at hs
          · rename_i y hy
            split at hs
            · rename_i hp; cases hs; exact hset k y _ _ hy (by rw [hp]; decide)
            · cases hs
          · cases hs
        | answer k e =>
          simp only [step] at hs
          split at hs
          · rename_i y hy
            split at hs
            · rename_i hp
              split at hs
              · cases hs; exact hset k y _ s1.cache hy (by rw [hp.1]; decide)
              · cases hs; exact hset k y _ _ hy (by rw [hp.1]; decide)
            · cases hs
          · cases hs
        | evict h =>
          simp only [step] at hs
          split at hs
          · cases hs; exact ih
          · cases hs
    simp [step, key]
  · cases hs

/-- C146, the part that holds of giving inputs back: when every run of an input is closed, every request answered and
no handler has forgotten its reference, the cache can drop the input. Missing: handlers do forget (see below). -/
theorem C146_given_back_partial {s : State} (h : Reach s) (hash : Nat)
    (hdone : ∀ x ∈ s.tasks, x.hash = hash → x.pc = .start ∨ x.pc = .failed ∨ x.pc = .done) (hc : s.cache hash ≠ none) :
    ∃ s', step s (.evict hash) = some s' ∧ s'.cache hash = none := by
  have hi := h.inv hash
  have h0 : held s hash = 0 := by
    refine List.countP_eq_zero.mpr fun x hx => ?_
    simp only [decide_eq_true_eq, not_and]
    intro hh
    rcases hdone x hx hh with h | h | h <;> rw [h] <;> simp [Pc.holds]
  cases hcc : s.cache hash with
  | none => exact absurd hcc hc
  | some n =>
    rw [hcc, h0] at hi
    simp only at hi
    subst hi
    exact ⟨{ s with cache := Function.update s.cache hash none }, by simp [step, hcc], Function.update_self ..⟩

/-- A forgotten reference is never given back: the input stays in the cache for good. -/
theorem forgotten_stays {s : State} (h : Reach s) (i : Nat) (x : Task) (hx : s.tasks[i]? = some x)
    (hf : x.pc = .forgotten) {s' : State} (hl : Leads s s') : s'.tasks[i]? = some x ∧ ∃ n, s'.cache x.hash = some (n + 1) := by
  have hr : Reach s' := by
    induction hl with
    | refl => exact h
    | step _ hs ih => exact .step ih hs
  have key : s'.tasks[i]? = some x := by
    clear hr
    induction hl with
    | refl => exact hx
    | @step s1 a s2 _ hs ih =>
      have hset : ∀ (k : Nat) (y : Task) (pc : Pc) (c : Nat → Option Nat), s1.tasks[k]? = some y → y.pc ≠ .forgotten →
          ({ s1 with cache := c }.goto k y pc).tasks[i]? = some x := by
        intro k y pc c hk hy
        have hne : k ≠ i := by
          rintro rfl
          rw [ih] at hk
          cases hk
          exact hy hf
        simp only [State.goto, List.getElem?_set_ne hne]
        exact ih
      cases a with
      | arrive h k =>
        simp only [step, Option.some.injEq] at hs
        subst hs
        have hlt := (List.getElem?_eq_some_iff.mp ih).1
        simp only [List.getElem?_append_left hlt]
        exact ih
      | evict h =>
        simp only [step] at hs
        split at hs
        · cases hs; exact ih
        · cases hs
      | _ =>
        simp only [step] at hs
        split at hs
        · rename_i y hy
          split at hs
          · rename_i hp
            have hne : y.pc ≠ .forgotten := by
              intro e
              simp [e] at hp
            repeat' split at hs
            all_goals
              cases hs
              exact hset _ y _ s1.cache hy hne
          · first
              | cases hs
              | (split at hs
                 · cases hs; exact ih
                 · cases hs)
        · cases hs
  refine ⟨key, ?_⟩
  have hi := hr.inv x.hash
  have hpos : 0 < held s' x.hash :=
    List.countP_pos_iff.mpr ⟨x, List.mem_of_getElem? key, by simp [hf, Pc.holds]⟩
  cases hc : s'.cache x.hash with
  | none => rw [hc] at hi; simp only at hi; omega
  | some n =>
    rw [hc] at hi; simp only at hi
    exact ⟨n - 1, by congr 1; omega⟩

def exec (s : State) : List Act → Option State
  | [] => some s
  | a :: as => (step s a).bind fun s' => exec s' as

theorem reach_of_exec (as : List Act) : ∀ {s s'}, Reach s → exec s as = some s' → Reach s' := by
  induction as with
  | nil => intro s s' h he; cases he; exact h
  | cons a as ih =>
    intro s s' h he
    simp only [exec, Option.bind_eq_some_iff] at he
    obtain ⟨s1, h1, h2⟩ := he
    exact ih (.step h h1) h2

/-- C146 is false of the code as far as giving back goes: an ephemeral run or a CI run that cannot get a directory
keeps its input in the cache for ever, whatever happens afterwards. -/
theorem C146_false_directory (hash : Nat) : ∃ s, Reach s ∧ s.tasks = [⟨hash, .literalRun, .forgotten⟩] ∧
    ∀ s', Leads s s' → ∃ n, s'.cache hash = some (n + 1) := by
  have h : exec {} [.arrive hash .literalRun, .add 0 true, .setEphemeral 0 false] =
      some { cache := Function.update (fun _ => none) hash (some 1), tasks := [⟨hash, .literalRun, .forgotten⟩] } := rfl
  have hr := reach_of_exec _ .init h
  exact ⟨_, hr, rfl, fun s' hl => (forgotten_stays hr 0 _ rfl rfl hl).2⟩

/-! ### A case -/

/-- An ephemeral run and a run of a problem share an input; a runner gets it; both close, one of them twice; the
input can be dropped. -/
def sample : List Act :=
  [.arrive 7 .literalRun, .add 0 true, .setEphemeral 0 true, .enqueue 0, .arrive 7 .problemRun, .add 1 false, .enqueue 1,
   .arrive 7 .cacheRequest, .add 2 false]

example : (exec {} sample).map (fun s => (s.cache 7, s.tasks.map Task.pc)) =
    some (some 3, [.open, .open, .hasRef]) := by decide +kernel

example : (exec {} (sample ++ [.close 0, .close 0, .answer 2 false, .release 0, .close 1, .close 0, .release 1])).map
    (fun s => (s.cache 7, s.tasks.map Task.pc)) = some (some 0, [.done, .done, .done]) := by decide +kernel

/-- The hypotheses of `C146_input_stays`, with a request that is about to look the input up. -/
example : ∃ s, Reach s ∧ s.tasks[0]? = some ⟨7, .literalRun, .open⟩ ∧ s.tasks[1]? = some ⟨7, .cacheRequest, .start⟩ := by
  have h : exec {} [.arrive 7 .literalRun, .add 0 true, .setEphemeral 0 true, .enqueue 0, .arrive 7 .cacheRequest] =
      some { cache := Function.update (fun _ => none) 7 (some 1),
             tasks := [⟨7, .literalRun, .open⟩, ⟨7, .cacheRequest, .start⟩] } := rfl
  exact ⟨_, reach_of_exec _ .init h, rfl, rfl⟩

end Quark.Pins
