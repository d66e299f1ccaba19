import Verif.Lifecycle.Inv

/-!
# Attempt identifiers under every interleaving
-/

namespace Quark.Lifecycle

/-- The identifiers a goroutine will use for a run. -/
inductive Uses : Thread → Nat → Nat → Prop
  | setId (w r last a) : Uses (.requeue w r last (.setId a)) r a
  | handling (r a) : Uses (.handling r a) r a
  | rqRemove (w r last a) : Uses (.requeue w r last (.remove a)) r a
  | clRemove (w r a) : Uses (.close w r (.remove a)) r a

/-- Which events are about attempt `a` of run `r`. -/
def Event.about : Event → Option (Nat × Nat)
  | .handed r a | .resolved r a | .uploaded r a | .failed r a | .judgeError r a | .aborted r a
  | .timedOut r a => some (r, a)
  | _ => none

/-- Whether the latest of the events that register or drop attempt `a` registered it. -/
def live (a : Nat) (evs : List Event) : Bool :=
  evs.foldl (fun b e => match e with
    | .handed _ a' => b || a' == a
    | .dropped a' => b && !(a' == a)
    | _ => b) false

structure Ids (own : Nat → Nat) (evs : List Event) (s : State) : Prop where
  runs : ∀ r run, s.runs[r]? = some run → own run.attempt = r ∧ run.attempt ≤ s.lastId
  uses : ∀ x ∈ s.threads, ∀ r a, Uses x r a → own a = r ∧ a ≤ s.lastId
  inflights : ∀ f ∈ s.inflights, own f.attempt = f.run ∧ f.attempt ≤ s.lastId
  mapping : ∀ a i, s.mapping a = some i → ∃ f, s.inflights[i]? = some f ∧ f.attempt = a
  events : ∀ e ∈ evs, ∀ r a, e.about = some (r, a) → own a = r ∧ a ≤ s.lastId
  live : ∀ a, live a evs = (s.mapping a).isSome

theorem live_snoc (a : Nat) (evs : List Event) (e : Event) :
    Lifecycle.live a (evs ++ [e]) = match e with
      | .handed _ a' => Lifecycle.live a evs || a' == a
      | .dropped a' => Lifecycle.live a evs && !(a' == a)
      | _ => Lifecycle.live a evs := by
  unfold Lifecycle.live
  rw [List.foldl_append]
  rfl

theorem Quiet.uses {s : State} {y x : Thread} {e : Event} (h : Quiet s y x e) {r a : Nat}
    (hu : Uses x r a) : ∃ run, s.runs[r]? = some run ∧ run.attempt = a := by
  cases h <;> first
    | (cases hu; done)
    | (split at hu <;> cases hu; done)
    | (cases hu; exact ⟨_, ‹_›, rfl⟩)

theorem Quiet.about {s : State} {y x : Thread} {e : Event} (h : Quiet s y x e) {r a : Nat}
    (he : e.about = some (r, a)) : Uses y r a ∨ ∃ f ∈ s.inflights, f.run = r ∧ f.attempt = a := by
  cases h <;> simp [Event.about] at he
  case uploaded => obtain ⟨rfl, rfl⟩ := he; exact .inl (.handling _ _)
  case failed => obtain ⟨rfl, rfl⟩ := he; exact .inl (.handling _ _)
  case judgeError => obtain ⟨rfl, rfl⟩ := he; exact .inl (.handling _ _)
  case aborted => obtain ⟨rfl, rfl⟩ := he; exact .inl (.handling _ _)
  case fireConnect i f hf => exact .inr ⟨f, List.mem_of_getElem? hf, he⟩
  case fireReady i f hf => exact .inr ⟨f, List.mem_of_getElem? hf, he⟩

theorem Quiet.live {s : State} {y x : Thread} {e : Event} (h : Quiet s y x e) (a : Nat)
    (evs : List Event) : Lifecycle.live a (evs ++ [e]) = Lifecycle.live a evs := by
  rw [live_snoc]; cases h <;> rfl

theorem Write.live {s : State} {y x : Thread} {r : Nat} {f : Run → Run} {e : Event}
    (h : Write s y r f x e) (a : Nat)
    (evs : List Event) : Lifecycle.live a (evs ++ [e]) = Lifecycle.live a evs := by
  rw [live_snoc]; cases h <;> rfl

theorem mem_snoc_events {P : Event → Prop} {evs : List Event} {e : Event} (h : ∀ x ∈ evs, P x)
    (he : P e) : ∀ x ∈ evs ++ [e], P x := by
  intro x hx
  rcases List.mem_append.mp hx with hx | hx
  · exact h x hx
  · rw [List.mem_singleton.mp hx]; exact he

theorem mem_snoc_threads {P : Thread → Prop} {l : List Thread} {x : Thread} (h : ∀ y ∈ l, P y)
    (hx : P x) : ∀ y ∈ l ++ [x], P y := by
  intro y hy
  rcases List.mem_append.mp hy with hy | hy
  · exact h y hy
  · rw [List.mem_singleton.mp hy]; exact hx

theorem mem_set_threads {P : Thread → Prop} {l : List Thread} {t : Nat} {x : Thread}
    (h : ∀ y ∈ l, P y) (hx : P x) : ∀ y ∈ l.set t x, P y := by
  intro y hy
  rcases List.mem_or_eq_of_mem_set hy with hy | hy
  · exact h y hy
  · rw [hy]; exact hx

theorem Ids.fresh {own : Nat → Nat} {evs : List Event} {s : State} (h : Ids own evs s) (q : Nat) :
    Ids (Function.update own (s.lastId + 1) q) evs { s with lastId := s.lastId + 1 } := by
  have key : ∀ {a r}, own a = r ∧ a ≤ s.lastId →
      Function.update own (s.lastId + 1) q a = r ∧ a ≤ s.lastId + 1 := by
    intro a r ⟨h1, h2⟩
    rw [Function.update_of_ne (by omega)]
    exact ⟨h1, by omega⟩
  exact ⟨fun r run hr => key (h.runs r run hr), fun x hx r a hu => key (h.uses x hx r a hu),
    fun f hf => key (h.inflights f hf), h.mapping, fun e he r a hea => key (h.events e he r a hea), h.live⟩

theorem Ids.remove {own : Nat → Nat} {evs : List Event} {s : State} (h : Ids own evs s) (a : Nat) :
    Ids own (evs ++ [.dropped a]) (s.removeAttempt a) := by
  have hev : ∀ e ∈ evs ++ [.dropped a], ∀ r a, e.about = some (r, a) → own a = r ∧ a ≤ s.lastId :=
    mem_snoc_events h.events (fun r a he => by simp [Event.about] at he)
  cases hm : s.mapping a with
  | none =>
    have : s.removeAttempt a = s := by simp [State.removeAttempt, hm]
    rw [this]
    refine ⟨h.runs, h.uses, h.inflights, h.mapping, hev, ?_⟩
    intro b
    rw [live_snoc]
    simp only
    by_cases hb : a = b
    · subst hb; simp [hm]
    · simp [hb, h.live]
  | some i =>
    obtain ⟨f, hf, hfa⟩ := h.mapping a i hm
    have heq : s.removeAttempt a = { s with
        mapping := Function.update s.mapping a none
        runs := s.runs.modify f.run fun r => { r with monitor := false }
        inflights := s.inflights.set i { f with connected := true, ready := true } } := by
      simp [State.removeAttempt, hm, hf]
    rw [heq]
    refine ⟨?_, h.uses, ?_, ?_, hev, ?_⟩
    · intro r run hr
      simp only [List.getElem?_modify] at hr
      cases hr' : s.runs[r]? with
      | none => rw [hr'] at hr; simp at hr
      | some run' =>
        rw [hr'] at hr
        have := h.runs r run' hr'
        split_ifs at hr <;> simp at hr <;> subst hr <;> exact this
    · intro g hg
      rcases List.mem_or_eq_of_mem_set hg with hg | hg
      · exact h.inflights g hg
      · subst hg; exact h.inflights f (List.mem_of_getElem? hf)
    · intro b j hb
      simp only at hb
      by_cases hab : b = a
      · subst hab; simp at hb
      · rw [Function.update_of_ne hab] at hb
        obtain ⟨g, hg, hgb⟩ := h.mapping b j hb
        simp only
        by_cases hij : i = j
        · subst hij
          obtain ⟨hlt, -⟩ := List.getElem?_eq_some_iff.mp hg
          rw [hf] at hg
          cases hg
          exact ⟨_, List.getElem?_set_self hlt, hgb⟩
        · exact ⟨g, by rw [List.getElem?_set_ne hij]; exact hg, hgb⟩
    · intro b
      rw [live_snoc]
      simp only
      by_cases hb : a = b
      · subst hb; simp
      · rw [Function.update_of_ne (Ne.symm hb)]
        simp [hb, h.live]

theorem Ids.move {own : Nat → Nat} {evs : List Event} {s : State} (h : Ids own evs s) {t : Nat}
    {x : Thread} (hx : ∀ r a, Uses x r a → own a = r ∧ a ≤ s.lastId) : Ids own evs (s.goto t x) :=
  ⟨h.runs, mem_set_threads h.uses hx, h.inflights, h.mapping, h.events, h.live⟩

theorem Ids.say {own : Nat → Nat} {evs : List Event} {s : State} (h : Ids own evs s) {e : Event}
    (he : ∀ r a, e.about = some (r, a) → own a = r ∧ a ≤ s.lastId)
    (hl : ∀ a, Lifecycle.live a (evs ++ [e]) = Lifecycle.live a evs) : Ids own (evs ++ [e]) s :=
  ⟨h.runs, h.uses, h.inflights, h.mapping, mem_snoc_events h.events he,
    fun a => by rw [hl]; exact h.live a⟩

theorem Ids.modRun {own : Nat → Nat} {evs : List Event} {s : State} (h : Ids own evs s) {r : Nat}
    {f : Run → Run} (hf : ∀ x, (f x).attempt = x.attempt ∨
      (own (f x).attempt = r ∧ (f x).attempt ≤ s.lastId)) : Ids own evs (s.modRun r f) := by
  refine ⟨?_, h.uses, h.inflights, h.mapping, h.events, h.live⟩
  intro q run hq
  simp only [State.modRun, List.getElem?_modify] at hq
  cases hq' : s.runs[q]? with
  | none => rw [hq'] at hq; simp at hq
  | some run' =>
    rw [hq'] at hq
    have h0 := h.runs q run' hq'
    split_ifs at hq with hrq <;> simp at hq <;> subst hq
    · rcases hf run' with h1 | h1
      · rw [h1]; exact h0
      · rw [hrq] at h1; exact h1
    · exact h0

theorem Ids.token {own : Nat → Nat} {evs : List Event} {s : State} (h : Ids own evs s) {i : Nat}
    {f g : Inflight} (hf : s.inflights[i]? = some f) (hg : g.run = f.run ∧ g.attempt = f.attempt) :
    Ids own evs { s with inflights := s.inflights.set i g } := by
  refine ⟨h.runs, h.uses, ?_, ?_, h.events, h.live⟩
  · intro k hk
    rcases List.mem_or_eq_of_mem_set hk with hk | hk
    · exact h.inflights k hk
    · subst hk
      have := h.inflights f (List.mem_of_getElem? hf)
      rw [hg.1, hg.2]
      exact this
  · intro b j hb
    obtain ⟨k, hk, hkb⟩ := h.mapping b j hb
    simp only
    by_cases hij : i = j
    · subst hij
      obtain ⟨hlt, -⟩ := List.getElem?_eq_some_iff.mp hk
      rw [hf] at hk
      cases hk
      exact ⟨_, List.getElem?_set_self hlt, by rw [hg.2]; exact hkb⟩
    · exact ⟨k, by rw [List.getElem?_set_ne hij]; exact hk, hkb⟩

theorem Ids.step {m : Int} {own : Nat → Nat} {evs : List Event} {s s' : State} {e : Event}
    (h : Ids own evs s) (hs : Step m s s' e) : ∃ own', Ids own' (evs ++ [e]) s' := by
  cases hs with
  | submit =>
    refine ⟨Function.update own (s.lastId + 1) s.runs.length, ?_⟩
    have h1 := h.fresh s.runs.length
    refine ⟨?_, mem_snoc_threads h1.uses (fun r a hu => by cases hu), h1.inflights, h1.mapping,
      mem_snoc_events h1.events (fun r a he => by simp [Event.about] at he),
      fun a => by rw [live_snoc]; exact h1.live a⟩
    intro r run hr
    rcases Nat.lt_trichotomy r s.runs.length with hlt | hlt | hlt
    · rw [List.getElem?_append_left hlt] at hr
      exact h1.runs r run hr
    · subst hlt
      simp at hr
      subst hr
      simp
    · rw [List.getElem?_eq_none (by simp; omega)] at hr
      cases hr
  | take k r hk =>
    exact ⟨own, h.runs, mem_snoc_threads h.uses (fun r a hu => by cases hu), h.inflights, h.mapping,
      mem_snoc_events h.events (fun r a he => by simp [Event.about] at he),
      fun a => by rw [live_snoc]; exact h.live a⟩
  | rejected a ha =>
    exact ⟨own, h.say (fun r a he => by simp [Event.about] at he) (fun b => by rw [live_snoc])⟩
  | resolved a i f ha hf =>
    refine ⟨own, ?_⟩
    have h1 := h.token hf (g := { f with connected := true }) ⟨rfl, rfl⟩
    obtain ⟨f', hf', hfa⟩ := h.mapping a i ha
    rw [hf] at hf'
    cases hf'
    have h2 := h.inflights f (List.mem_of_getElem? hf)
    rw [hfa] at h2
    refine ⟨h1.runs, mem_snoc_threads h1.uses (fun r b hu => ?_), h1.inflights, h1.mapping,
      mem_snoc_events h1.events (fun r b he => ?_), fun a => by rw [live_snoc]; exact h1.live a⟩
    · cases hu; exact h2
    · simp [Event.about] at he
      obtain ⟨rfl, rfl⟩ := he
      exact h2
  | quiet t y x e ht hq =>
    refine ⟨own, (h.say (fun r a he => ?_) (fun a => hq.live a evs)).move
      (fun r a hu => ?_)⟩
    · rcases hq.about he with hu | ⟨f, hf, h1, h2⟩
      · exact h.uses y (List.mem_of_getElem? ht) r a hu
      · have := h.inflights f hf
        rwa [h1, h2] at this
    · obtain ⟨run, h1, rfl⟩ := hq.uses hu
      exact h.runs r run h1
  | write t y r f x e ht hw =>
    refine ⟨own, Ids.move (Ids.modRun (h.say ?_ (fun a => hw.live a evs)) ?_) ?_⟩
    · intro r a he
      cases hw <;> simp [Event.about] at he
    · intro z
      cases hw
      case setId w l a =>
        exact .inr (h.uses _ (List.mem_of_getElem? ht) _ _ (.setId w r l a))
      all_goals exact .inl rfl
    · intro r a hu
      cases hw <;> cases hu
  | crash t y r e run ht hrun hmon hor =>
    refine ⟨own, Ids.move (s := { s with crashed := true }) (Ids.say ?_ ?_ ?_) (fun r a hu => by cases hu)⟩
    · exact ⟨h.runs, h.uses, h.inflights, h.mapping, h.events, h.live⟩
    · intro r a he
      rcases hor with ⟨l, -, rfl⟩ | ⟨-, rfl⟩ <;> simp [Event.about] at he
    · intro a
      rw [live_snoc]
      rcases hor with ⟨l, -, rfl⟩ | ⟨-, rfl⟩ <;> rfl
  | clPanic t y r run ht hrun hmon hor =>
    exact ⟨own, (h.say (fun r a he => by simp [Event.about] at he) (fun a => by rw [live_snoc])).move
      (fun r a hu => by cases hu)⟩
  | rqRemove t w r l a ht => exact ⟨own, (h.remove a).move (fun r a hu => by cases hu)⟩
  | clRemove t w r a ht => exact ⟨own, (h.remove a).move (fun r a hu => by cases hu)⟩
  | newId t w r l ht =>
    refine ⟨Function.update own (s.lastId + 1) r, ?_⟩
    refine ((h.fresh r).say (fun r a he => by simp [Event.about] at he)
      (fun a => by rw [live_snoc])).move ?_
    intro q a hu
    cases hu
    simp
  | add t r ht =>
    refine ⟨own, Ids.move (s := { s with queue := s.queue ++ [r] }) (Ids.say ?_
      (fun r a he => by simp [Event.about] at he) (fun a => by rw [live_snoc])) (fun r a hu => by cases hu)⟩
    exact ⟨h.runs, h.uses, h.inflights, h.mapping, h.events, h.live⟩
  | enqueue t w r l ht =>
    refine ⟨own, Ids.move (s := { s with queue := s.queue ++ [r] }) (Ids.say ?_
      (fun r a he => by simp [Event.about] at he) (fun a => by rw [live_snoc])) (fun r a hu => by cases hu)⟩
    exact ⟨h.runs, h.uses, h.inflights, h.mapping, h.events, h.live⟩
  | register t r run ht hrun =>
    have h0 := h.runs r run hrun
    refine ⟨own, ?_⟩
    have h1 := h.modRun (r := r) (f := fun x => { x with monitor := true }) (fun x => .inl rfl)
    refine ⟨h1.runs, mem_snoc_threads (mem_set_threads h.uses (fun r a hu => by cases hu))
      (fun r a hu => by cases hu), ?_, ?_, mem_snoc_events h.events ?_, ?_⟩
    · intro f hf
      rcases List.mem_append.mp hf with hf | hf
      · exact h.inflights f hf
      · rw [List.mem_singleton.mp hf]; exact h0
    · intro b j hb
      simp only at hb
      by_cases hab : b = run.attempt
      · subst hab
        simp at hb
        subst hb
        exact ⟨{ run := r, attempt := run.attempt }, by simp, rfl⟩
      · rw [Function.update_of_ne hab] at hb
        obtain ⟨f, hf, hfb⟩ := h.mapping b j hb
        obtain ⟨hlt, -⟩ := List.getElem?_eq_some_iff.mp hf
        exact ⟨f, by rw [List.getElem?_append_left hlt]; exact hf, hfb⟩
    · intro q b he
      simp [Event.about] at he
      obtain ⟨rfl, rfl⟩ := he
      exact h0
    · intro b
      rw [live_snoc]
      simp only
      by_cases hab : run.attempt = b
      · subst hab; simp
      · rw [Function.update_of_ne (Ne.symm hab)]
        simp [hab, h.live]
  | connect t i f ht hf =>
    exact ⟨own, Ids.move ((h.token hf (g := { f with connected := false }) ⟨rfl, rfl⟩).say
      (fun r a he => by simp [Event.about] at he) (fun a => by rw [live_snoc])) (fun r a hu => by cases hu)⟩

theorem Reach.ids {m : Int} {evs : List Event} {s : State} (h : Reach m evs s) :
    ∃ own, Ids own evs s := by
  induction h with
  | init => exact ⟨fun _ => 0, by constructor <;> simp [Lifecycle.live]⟩
  | step _ hs ih =>
    obtain ⟨own, ho⟩ := ih
    exact ho.step (step_inv hs).1

end Quark.Lifecycle
