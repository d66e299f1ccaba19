import Verif.Scoreboard.Model
import Mathlib.Data.List.Nodup

namespace Quark.Scoreboard

variable {α : Type} [DecidableEq α]

/-- An update of `c` that no refresh of `c` has followed. -/
def Unanswered (c : α) (log : List (Event α)) : Prop :=
  ∃ l1 l2, log = l1 ++ .update c :: l2 ∧ Event.refresh c ∉ l2

theorem not_unanswered_nil (c : α) : ¬ Unanswered c ([] : List (Event α)) := by
  rintro ⟨l1, l2, h, -⟩
  simp at h

theorem unanswered_append {c : α} {l k : List (Event α)} (h : Unanswered c (l ++ k)) :
    (Unanswered c l ∧ Event.refresh c ∉ k) ∨ Unanswered c k := by
  obtain ⟨l1, l2, h, hn⟩ := h
  rcases List.append_eq_append_iff.1 h with ⟨x, hx, hy⟩ | ⟨x, hx, hy⟩
  · right; exact ⟨x, l2, hy, hn⟩
  · cases x with
    | nil => right; exact ⟨[], l2, by simpa using hy.symm, hn⟩
    | cons e es =>
      simp only [List.cons_append, List.cons.injEq] at hy
      left
      refine ⟨⟨l1, es, by rw [hx, hy.1], fun hm => hn (by rw [hy.2]; simp [hm])⟩, fun hm => hn (by rw [hy.2]; simp [hm])⟩

/-- The times at which windows of `c` were opened. -/
def opens (c : α) : List (Event α) → List Nat
  | [] => []
  | .opened d t :: es => if d = c then t :: opens c es else opens c es
  | _ :: es => opens c es

theorem opens_append (c : α) (l k : List (Event α)) : opens c (l ++ k) = opens c l ++ opens c k := by
  induction l with
  | nil => rfl
  | cons e es ih =>
    cases e <;> simp only [opens, List.cons_append, ih]
    split <;> simp

structure Inv (w : Nat) (s : State α) : Prop where
  nodup : (s.events.map (·.1)).Nodup
  keys : ∀ c, (∃ t, (c, t) ∈ s.events) ↔ s.dirty c ≠ none
  free : s.stuck = false
  armed : s.events ≠ [] → s.fired = true ∨ ∃ t, s.timer = .at t
  firedStopped : s.fired = true → s.timer = .stopped ∧ ∃ e ∈ s.events, e.2 ≤ s.now
  running : s.fired = false → s.timer ≠ .stopped
  due : ∀ t, s.timer = .at t → ∃ e ∈ s.events, e.2 ≤ t
  window : ∀ c t, (c, t) ∈ s.events → ∀ u ∈ opens c s.log, u + w ≤ t
  past : ∀ c, (∀ t, (c, t) ∉ s.events) → ∀ u ∈ opens c s.log, u + w ≤ s.now
  spaced : ∀ c, (opens c s.log).Pairwise (fun a b => a + w ≤ b)
  answered : ∀ c, Unanswered c s.log → s.dirty c = some true

theorem nextTimer_spec (events : List (α × Nat)) (now d : Nat) :
    nextTimer events now d ≠ .stopped ∧ (events ≠ [] → ∃ t, nextTimer events now d = .at t) ∧
    ∀ t, nextTimer events now d = .at t → ∃ e ∈ events, e.2 ≤ t := by
  unfold nextTimer
  cases hm : (events.map (·.2)).min? with
  | none =>
    refine ⟨by simp, fun h => ?_, by simp⟩
    rw [List.min?_eq_none_iff, List.map_eq_nil_iff] at hm
    exact absurd hm h
  | some t =>
    refine ⟨by simp, fun _ => ⟨_, rfl⟩, fun u hu => ?_⟩
    have := List.min?_mem hm
    obtain ⟨e, he, rfl⟩ := List.mem_map.1 this
    simp only [Timer.at.injEq] at hu
    exact ⟨e, he, by omega⟩

theorem mem_erase_fst {l : List (α × Nat)} (hn : (l.map (·.1)).Nodup) {e x : α × Nat} (he : e ∈ l) :
    x ∈ l.erase e ↔ x ∈ l ∧ x.1 ≠ e.1 := by
  have hn' : l.Nodup := List.Nodup.of_map _ hn
  rw [hn'.mem_erase_iff]
  constructor
  · rintro ⟨h1, h2⟩
    refine ⟨h2, fun h3 => h1 ?_⟩
    have : ∀ (l : List (α × Nat)), (l.map (·.1)).Nodup → ∀ x ∈ l, ∀ y ∈ l, x.1 = y.1 → x = y := by
      intro l
      induction l with
      | nil => simp
      | cons z zs ih =>
        intro hn x hx y hy hxy
        simp only [List.map_cons, List.nodup_cons, List.mem_map, not_exists, not_and] at hn
        rcases List.mem_cons.1 hx with rfl | hx1 <;> rcases List.mem_cons.1 hy with rfl | hy1
        · rfl
        · exact absurd hxy.symm (hn.1 y hy1)
        · exact absurd hxy (hn.1 x hx1)
        · exact ih hn.2 x hx1 y hy1 hxy
    exact this l hn x h2 e he h3
  · rintro ⟨h1, h2⟩
    exact ⟨fun h => h2 (by rw [h]), h1⟩

theorem inv_init (w : Nat) : Inv w ({} : State α) where
  nodup := by simp
  keys := by simp
  free := rfl
  armed := by simp
  firedStopped := by simp
  running := by simp
  due := by simp
  window := by simp
  past := by simp [opens]
  spaced := by simp [opens]
  answered := fun c h => absurd h (not_unanswered_nil c)

theorem inv_step {w : Nat} {s s' : State α} {a : Act α} (hI : Inv w s) (hs : step w s a = some s') : Inv w s' := by
  unfold step at hs
  split at hs
  · rename_i h; rw [hI.free] at h; cases h
  cases a with
  | tick d =>
    cases hs
    refine ⟨hI.nodup, hI.keys, hI.free, hI.armed, fun h => ?_, hI.running, hI.due, hI.window, ?_, hI.spaced,
      hI.answered⟩
    · obtain ⟨h1, e, he, h2⟩ := hI.firedStopped h
      exact ⟨h1, e, he, by dsimp only; omega⟩
    · intro c h u hu
      have := hI.past c h u hu
      dsimp only; omega
  | fire =>
    dsimp only at hs
    split at hs
    · rename_i t ht
      split at hs
      · cases hs
        obtain ⟨e, he, h2⟩ := hI.due t ht
        refine ⟨hI.nodup, hI.keys, hI.free, fun _ => Or.inl rfl, fun _ => ⟨rfl, e, he, by dsimp only; omega⟩, by simp,
          by simp, hI.window, hI.past, hI.spaced, hI.answered⟩
      · cases hs
    · cases hs
  | receive c d =>
    dsimp only at hs
    split at hs
    · rename_i b hb
      cases hs
      have hop : ∀ x, opens x (s.log ++ [.update c]) = opens x s.log := fun x => by
        rw [opens_append]; simp [opens]
      refine ⟨hI.nodup, ?_, hI.free, hI.armed, hI.firedStopped, hI.running, hI.due, ?_, ?_, ?_, ?_⟩
      · intro x
        dsimp only
        rw [hI.keys]
        by_cases hx : x = c
        · subst hx; simp [upd, hb]
        · simp [upd, hx]
      · intro x t ht u hu; rw [hop] at hu; exact hI.window x t ht u hu
      · intro x ht u hu; rw [hop] at hu; exact hI.past x ht u hu
      · intro x; rw [hop]; exact hI.spaced x
      · intro x hx
        dsimp only
        by_cases hxc : x = c
        · simp [upd, hxc]
        · simp only [upd, if_neg hxc]
          rcases unanswered_append hx with ⟨h, -⟩ | ⟨l1, l2, h, -⟩
          · exact hI.answered x h
          · exfalso
            cases l1 with
            | nil => simp at h; exact hxc h.1.symm
            | cons y ys => simp at h
    · rename_i hb
      have hno : ∀ t, (c, t) ∉ s.events := fun t ht => (hI.keys c).1 ⟨t, ht⟩ hb
      have hnm : c ∉ s.events.map (·.1) := by
        intro h
        obtain ⟨⟨x, t⟩, he, hx⟩ := List.mem_map.1 h
        dsimp only at hx
        subst hx
        exact hno t he
      have hnod : ((s.events ++ [(c, s.now + w)]).map (·.1)).Nodup := by
        rw [List.map_append, List.nodup_append]
        refine ⟨hI.nodup, by simp, ?_⟩
        intro x hx y hy hxy
        simp only [List.map_cons, List.map_nil, List.mem_singleton] at hy
        exact hnm (by rw [← hy, ← hxy]; exact hx)
      have hkeys : ∀ x, (∃ t, (x, t) ∈ s.events ++ [(c, s.now + w)]) ↔ upd s.dirty c (some false) x ≠ none := by
        intro x
        by_cases hx : x = c
        · subst hx; simp [upd]
        · have := hI.keys x
          simp [upd, hx]
          rw [this]
      have hop : ∀ x, opens x (s.log ++ [.update c, .opened c s.now] ++ [.refresh c]) =
          opens x s.log ++ (if c = x then [s.now] else []) := by
        intro x
        rw [List.append_assoc, opens_append]
        simp [opens]
      have hwin : ∀ x t, (x, t) ∈ s.events ++ [(c, s.now + w)] →
          ∀ u ∈ opens x (s.log ++ [.update c, .opened c s.now] ++ [.refresh c]), u + w ≤ t := by
        intro x t ht u hu
        rw [hop] at hu
        simp only [List.mem_append, List.mem_singleton, Prod.mk.injEq] at ht
        by_cases hx : c = x
        · subst hx
          rcases ht with ht | ⟨-, rfl⟩
          · exact absurd ht (hno t)
          · simp only [if_true, List.mem_append, List.mem_singleton] at hu
            rcases hu with hu | rfl
            · have := hI.past c hno u hu; omega
            · omega
        · rw [if_neg hx, List.append_nil] at hu
          rcases ht with ht | ⟨h, -⟩
          · exact hI.window x t ht u hu
          · exact absurd h.symm hx
      have hpast : ∀ x, (∀ t, (x, t) ∉ s.events ++ [(c, s.now + w)]) →
          ∀ u ∈ opens x (s.log ++ [.update c, .opened c s.now] ++ [.refresh c]), u + w ≤ s.now := by
        intro x ht u hu
        have hx : ¬ c = x := by
          rintro rfl
          exact ht (s.now + w) (by simp)
        rw [hop, if_neg hx, List.append_nil] at hu
        exact hI.past x (fun t h => ht t (by simp [h])) u hu
      have hsp : ∀ x, (opens x (s.log ++ [.update c, .opened c s.now] ++ [.refresh c])).Pairwise
          (fun a b => a + w ≤ b) := by
        intro x
        rw [hop]
        split
        · rename_i hx
          subst hx
          rw [List.pairwise_append]
          refine ⟨hI.spaced c, by simp, ?_⟩
          intro u hu v hv
          rw [List.mem_singleton] at hv
          subst hv
          exact hI.past c hno u hu
        · simpa using hI.spaced x
      have hans : ∀ x, Unanswered x (s.log ++ [.update c, .opened c s.now] ++ [.refresh c]) →
          upd s.dirty c (some false) x = some true := by
        intro x hx
        have hxc : x ≠ c := by
          rintro rfl
          rcases unanswered_append hx with ⟨-, h⟩ | ⟨l1, l2, h, -⟩
          · exact h (by simp)
          · cases l1 <;> simp at h
        simp only [upd, if_neg hxc]
        rcases unanswered_append hx with ⟨h, -⟩ | ⟨l1, l2, h, -⟩
        · rcases unanswered_append h with ⟨h, -⟩ | ⟨l1, l2, h, -⟩
          · exact hI.answered x h
          · exfalso
            have hm : Event.update x ∈ [Event.update c, .opened c s.now] := by rw [h]; simp
            simp at hm
            exact hxc hm
        · cases l1 <;> simp at h
      split at hs
      · rename_i hlen
        have hev : s.events = [] := by
          rw [List.length_append] at hlen
          simp at hlen
          exact hlen
        split at hs
        · rename_i hst
          exact absurd hst.1 (hI.running hst.2)
        · cases hs
          refine ⟨hnod, hkeys, hI.free, fun _ => Or.inr ⟨_, rfl⟩, by simp, by simp, ?_, hwin, ?_, hsp, hans⟩
          · intro t ht
            simp only [Timer.at.injEq] at ht
            exact ⟨(c, s.now + w), by simp, by dsimp only; omega⟩
          · intro x h u hu
            have := hpast x h u hu
            dsimp only; omega
      · rename_i hlen
        cases hs
        have hne : s.events ≠ [] := by
          intro h; apply hlen; rw [h]; simp
        refine ⟨hnod, hkeys, hI.free, fun _ => hI.armed hne, fun h => ?_, hI.running, fun t ht => ?_, hwin, hpast, hsp, hans⟩
        · obtain ⟨h1, e, he, h2⟩ := hI.firedStopped h
          exact ⟨h1, e, by simp [he], h2⟩
        · obtain ⟨e, he, h2⟩ := hI.due t ht
          exact ⟨e, by simp [he], h2⟩
  | expire e d =>
    dsimp only at hs
    split at hs
    · rename_i hc
      obtain ⟨hf, he, hmin⟩ := hc
      cases hs
      obtain ⟨hstop, x, hx, hdue⟩ := hI.firedStopped hf
      have hle : e.2 ≤ s.now := Nat.le_trans (hmin x hx) hdue
      obtain ⟨n1, n2, n3⟩ := nextTimer_spec (s.events.erase e) s.now d
      have hop : ∀ c, opens c (s.log ++ (if s.dirty e.1 = some true then [Event.refresh e.1] else []) ++
          [.expired e.1 s.now]) = opens c s.log := by
        intro c
        rw [List.append_assoc, opens_append]
        split <;> simp [opens]
      constructor
      · exact hI.nodup.sublist (List.Sublist.map _ List.erase_sublist)
      · intro c
        dsimp only
        have := hI.keys c
        simp only [mem_erase_fst hI.nodup he]
        by_cases hce : c = e.1
        · subst hce; simp [upd]
        · simp only [upd, if_neg hce]
          rw [← this]
          simp [hce]
      · exact hI.free
      · intro hne; exact Or.inr (n2 hne)
      · intro h; cases h
      · intro _; exact n1
      · exact n3
      · intro c t ht u hu
        rw [hop] at hu
        exact hI.window c t ((mem_erase_fst hI.nodup he).1 ht).1 u hu
      · intro c ht u hu
        rw [hop] at hu
        dsimp only
        by_cases hin : ∃ t, (c, t) ∈ s.events
        · obtain ⟨t, hin⟩ := hin
          by_cases hce : c = e.1
          · subst hce
            have := hI.window e.1 e.2 he u hu
            omega
          · exact absurd ((mem_erase_fst hI.nodup he).2 ⟨hin, hce⟩) (ht t)
        · have := hI.past c (fun t h => hin ⟨t, h⟩) u hu
          omega
      · intro c; rw [hop]; exact hI.spaced c
      · intro c hc
        dsimp only
        have key : Unanswered c (s.log ++ (if s.dirty e.1 = some true then [Event.refresh e.1] else [])) := by
          rcases unanswered_append hc with ⟨h, -⟩ | ⟨l1, l2, h, -⟩
          · exact h
          · cases l1 <;> simp at h
        by_cases hce : c = e.1
        · exfalso
          subst hce
          by_cases hd : s.dirty e.1 = some true
          · rw [if_pos hd] at key
            rcases unanswered_append key with ⟨-, h⟩ | ⟨l1, l2, h, -⟩
            · exact h (by simp)
            · cases l1 <;> simp at h
          · rw [if_neg hd, List.append_nil] at key
            exact hd (hI.answered _ key)
        · simp only [upd, if_neg hce]
          rcases unanswered_append key with ⟨h, -⟩ | ⟨l1, l2, h, -⟩
          · exact hI.answered c h
          · exfalso
            split at h
            · cases l1 <;> simp at h
            · cases l1 <;> simp at h
    · cases hs
  | expireEmpty =>
    dsimp only at hs
    split at hs
    · rename_i hc
      obtain ⟨-, e, he, -⟩ := hI.firedStopped hc.1
      rw [hc.2] at he
      cases he
    · cases hs

theorem inv_reach {w : Nat} {s : State α} (h : Reach w s) : Inv w s := by
  induction h with
  | init => exact inv_init w
  | step _ hs ih => exact inv_step ih hs

/-! ### C46 -/

/-- **C46** (nothing is lost). After every update of a contest, its scoreboard was refreshed, or it has a window
pending whose end will refresh it; and as long as a window is pending, the timer runs or has already fired. -/
theorem C46_not_lost (w : Nat) (s : State α) (h : Reach w s) (c : α) (l1 l2 : List (Event α))
    (hlog : s.log = l1 ++ .update c :: l2) :
    Event.refresh c ∈ l2 ∨
    ((∃ t, (c, t) ∈ s.events) ∧ s.dirty c = some true ∧ (s.fired = true ∨ ∃ t, s.timer = .at t)) := by
  have hI := inv_reach h
  by_cases hr : Event.refresh c ∈ l2
  · exact Or.inl hr
  · right
    have hd := hI.answered c ⟨l1, l2, hlog, hr⟩
    obtain ⟨t, ht⟩ := (hI.keys c).2 (by rw [hd]; simp)
    exact ⟨⟨t, ht⟩, hd, hI.armed (by rintro he; rw [he] at ht; cases ht)⟩

/-- **C46** (the end of a window). When the timer has fired, there is a window whose deadline has passed; the loop
ends one with the least deadline, refreshes its contest if an update came during the window, and forgets it. -/
theorem C46_expiry (w : Nat) (s s' : State α) (h : Reach w s) (e : α × Nat) (d : Nat)
    (hs : step w s (.expire e d) = some s') :
    e.2 ≤ s.now ∧ (∀ x ∈ s.events, e.2 ≤ x.2) ∧ s'.dirty e.1 = none ∧ (∀ t, (e.1, t) ∉ s'.events) ∧
    ∃ k, s'.log = s.log ++ k ++ [.expired e.1 s.now] ∧
      ((s.dirty e.1 = some true ∧ k = [.refresh e.1]) ∨ (s.dirty e.1 ≠ some true ∧ k = [])) := by
  have hI := inv_reach h
  have hI' := inv_step hI hs
  have hd : s'.dirty e.1 = none := by
    unfold step at hs
    split at hs
    · cases hs
    · dsimp only at hs
      split at hs
      · cases hs; simp [upd]
      · cases hs
  have hgone : ∀ t, (e.1, t) ∉ s'.events := fun t ht => (hI'.keys e.1).1 ⟨t, ht⟩ hd
  unfold step at hs
  split at hs
  · cases hs
  · dsimp only at hs
    split at hs
    · rename_i hc
      obtain ⟨hf, he, hmin⟩ := hc
      obtain ⟨-, x, hx, hdue⟩ := hI.firedStopped hf
      cases hs
      refine ⟨Nat.le_trans (hmin x hx) hdue, hmin, hd, hgone, _, rfl, ?_⟩
      by_cases hd : s.dirty e.1 = some true
      · left; exact ⟨hd, by rw [if_pos hd]⟩
      · right; exact ⟨hd, by rw [if_neg hd]⟩
    · cases hs

/-- **C46** (the loop goes on). Once the timer has fired, some window can be ended, and the loop never blocks. -/
theorem C46_goes_on (w : Nat) (s : State α) (h : Reach w s) :
    s.stuck = false ∧ (s.fired = true → ∃ e, ∀ d, ∃ s', step w s (.expire e d) = some s') := by
  have hI := inv_reach h
  refine ⟨hI.free, fun hf => ?_⟩
  obtain ⟨-, x, hx, -⟩ := hI.firedStopped hf
  have hmin : ∀ l : List (α × Nat), l ≠ [] → ∃ e ∈ l, ∀ x ∈ l, e.2 ≤ x.2 := by
    intro l
    induction l with
    | nil => intro h; exact absurd rfl h
    | cons a l ih =>
      intro _
      by_cases hl : l = []
      · subst hl; exact ⟨a, by simp, by simp⟩
      · obtain ⟨e, he, h⟩ := ih hl
        by_cases hae : a.2 ≤ e.2
        · refine ⟨a, by simp, fun x hx => ?_⟩
          rcases List.mem_cons.1 hx with rfl | hx
          · exact Nat.le_refl _
          · exact Nat.le_trans hae (h x hx)
        · refine ⟨e, by simp [he], fun x hx => ?_⟩
          rcases List.mem_cons.1 hx with rfl | hx
          · omega
          · exact h x hx
  obtain ⟨e, he, hm⟩ := hmin s.events (by rintro h0; rw [h0] at hx; cases hx)
  refine ⟨e, fun d => Option.isSome_iff_exists.1 ?_⟩
  unfold step
  rw [if_neg (by rw [hI.free]; simp)]
  dsimp only
  rw [if_pos ⟨hf, he, hm⟩]
  rfl

/-- **C46** (one window). A contest has at most one window pending. -/
theorem C46_one_window (w : Nat) (s : State α) (h : Reach w s) (c : α) (t u : Nat) (ht : (c, t) ∈ s.events)
    (hu : (c, u) ∈ s.events) : t = u ∧ s.events.Nodup := by
  have hI := inv_reach h
  refine ⟨?_, List.Nodup.of_map _ hI.nodup⟩
  by_cases he : (c, t) = (c, u)
  · simpa using he
  · have := (mem_erase_fst hI.nodup hu (x := (c, t))).1 (by
      rw [(List.Nodup.of_map _ hI.nodup).mem_erase_iff]; exact ⟨he, ht⟩)
    exact absurd rfl this.2

/-- How many times the loop did something to a contest. -/
def refreshes (c : α) (log : List (Event α)) : Nat := log.countP fun e => e = .refresh c
def expiries (c : α) (log : List (Event α)) : Nat := log.countP fun e => match e with
  | .expired d _ => d = c
  | _ => false

/-- **C46** (rate). Windows of the same contest are opened at least `w` apart, and there is at most one refresh for
the opening of a window and one for its end. -/
theorem C46_rate (w : Nat) (s : State α) (h : Reach w s) (c : α) :
    (opens c s.log).Pairwise (fun a b => a + w ≤ b) ∧
    refreshes c s.log ≤ (opens c s.log).length + expiries c s.log ∧
    expiries c s.log ≤ (opens c s.log).length := by
  refine ⟨(inv_reach h).spaced c, ?_⟩
  suffices refreshes c s.log ≤ (opens c s.log).length + expiries c s.log ∧
      expiries c s.log + (s.events.countP fun e => e.1 = c) = (opens c s.log).length from
    ⟨this.1, by omega⟩
  induction h with
  | init => simp [refreshes, expiries, opens]
  | @step s s' a hr hs ih =>
    have hI := inv_reach hr
    obtain ⟨ih1, ih2⟩ := ih
    have hR : ∀ l k : List (Event α), refreshes c (l ++ k) = refreshes c l + refreshes c k := fun l k => by
      simp [refreshes]
    have hE : ∀ l k : List (Event α), expiries c (l ++ k) = expiries c l + expiries c k := fun l k => by
      simp [expiries]
    unfold step at hs
    split at hs
    · cases hs
    cases a with
    | tick d => cases hs; exact ⟨ih1, ih2⟩
    | fire =>
      dsimp only at hs
      split at hs
      · split at hs
        · cases hs; exact ⟨ih1, ih2⟩
        · cases hs
      · cases hs
    | receive x d =>
      dsimp only at hs
      split at hs
      · cases hs
        dsimp only
        rw [hR, hE, opens_append]
        simp only [refreshes, expiries, opens] at ih1 ih2 ⊢
        simp
        exact ⟨ih1, ih2⟩
      · have fin : ∀ l : List (Event α), l = s.log ++ [.update x, .opened x s.now] ++ [.refresh x] →
            refreshes c l ≤ (opens c l).length + expiries c l ∧
            expiries c l + ((s.events ++ [(x, s.now + w)]).countP fun e => e.1 = c) = (opens c l).length := by
          rintro l rfl
          rw [hR, hR, hE, hE, opens_append, opens_append, List.countP_append]
          simp only [refreshes, expiries, opens] at ih1 ih2 ⊢
          by_cases hx : x = c
          · subst hx; simp; omega
          · simp [hx]; omega
        split at hs
        · split at hs
          · rename_i hst
            exact absurd hst.1 (hI.running hst.2)
          · cases hs; exact fin _ rfl
        · cases hs; exact fin _ rfl
    | expire e d =>
      dsimp only at hs
      split at hs
      · rename_i hc
        have hcnt : (s.events.countP fun e => e.1 = c) =
            ((s.events.erase e).countP fun e => e.1 = c) + (if e.1 = c then 1 else 0) := by
          rw [(List.perm_cons_erase hc.2.1).countP_eq, List.countP_cons]
          simp
        cases hs
        dsimp only
        rw [hR, hR, hE, hE, opens_append, opens_append]
        simp only [refreshes, expiries, opens] at ih1 ih2 ⊢
        by_cases hx : e.1 = c
        · simp only [hx, if_true] at hcnt ⊢
          split <;> simp [opens] <;> omega
        · simp only [hx, if_false] at hcnt ⊢
          split <;> simp [hx, opens] <;> omega
      · cases hs
    | expireEmpty =>
      dsimp only at hs
      split at hs
      · cases hs; exact ⟨ih1, ih2⟩
      · cases hs

/-- A number of actions. -/
def steps (w : Nat) (s : State α) : List (Act α) → Option (State α)
  | [] => some s
  | a :: as => (step w s a).bind (steps w · as)

/-! Two contests with windows of length 10; one of them is updated during its window. -/
def demo : List (Act Nat) :=
  [.tick 5, .receive 1 1, .receive 2 0, .tick 3, .receive 1 0, .tick 8, .fire, .expire (1, 15) 0, .fire,
   .receive 1 0, .expire (2, 16) 0]

example : (steps 10 {} demo).map (·.log) = some
    [.update 1, .opened 1 5, .refresh 1, .update 2, .opened 2 6, .refresh 2, .update 1, .refresh 1, .expired 1 17,
     .update 1, .opened 1 17, .refresh 1, .expired 2 17] := by decide +kernel

end Quark.Scoreboard
