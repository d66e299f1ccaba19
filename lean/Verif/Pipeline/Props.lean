import Verif.Pipeline.Model
import Mathlib.Data.List.Perm.Basic
import Mathlib.Tactic.SplitIfs

/-!
# C119, C120: from the end of a run to the scoreboard
-/

namespace Quark.Pipeline

/-- The run that `runPostProcessor` works on. -/
def Post.run : Post → List Run
  | .idle => []
  | .busy r => [r]
  | .waiting r _ => [r]

/-- The run's contest, if its announcement makes the handler of `/broadcast/` inform the scoreboard loop. -/
def Run.board (r : Run) : Option String :=
  match r.contest with
  | some c => if c = "" then none else some c
  | none => none

/-- The contests of the runs that were announced successfully, in order. -/
def boards (l : List (Run × Outcome)) : List String :=
  l.filterMap fun p => if p.2 = .announced then p.1.board else none

/-- The contests among these that came from the grader's post-processor. -/
def fromGrader (l : List (Bool × String)) : List String :=
  l.filterMap fun p => if p.1 then some p.2 else none

structure Inv (s : State) : Prop where
  /-- closed runs: still to be sent, or sent -/
  called : s.called.Perm (s.closing ++ s.sent)
  /-- sent runs: processed, or on the way, in order -/
  sent : s.sent = s.ended.map (·.1) ++ s.post.run ++ s.listener ++ s.worker.toList ++ s.finished
  /-- contests of announced runs: received by the loop, or in the channel, in order -/
  boards : boards s.ended = fromGrader (s.received ++ s.chan)
  waiting : ∀ r c, s.post = .waiting r c → r.board = some c ∧ r.quiet = false
  finished : s.finished.length ≤ 1
  listener : s.listener.length ≤ 1
  chan : s.chan.length ≤ 1
  quiet : ∀ p ∈ s.ended, p.2 = .quiet ↔ p.1.quiet = true

theorem inv_init : Inv {} where
  called := List.Perm.refl _
  sent := rfl
  boards := rfl
  waiting := fun _ _ h => by cases h
  finished := Nat.zero_le _
  listener := Nat.zero_le _
  chan := Nat.zero_le _
  quiet := fun p hp => absurd hp List.not_mem_nil

theorem isEmpty_iff (c : String) : c.isEmpty = true ↔ c = "" := by
  exact String.isEmpty_iff

theorem boards_append (a b : List (Run × Outcome)) : boards (a ++ b) = boards a ++ boards b := by
  simp [boards, List.filterMap_append]

theorem fromGrader_append (a b : List (Bool × String)) : fromGrader (a ++ b) = fromGrader a ++ fromGrader b := by
  simp [fromGrader, List.filterMap_append]

theorem quiet_append {l : List (Run × Outcome)} {p : Run × Outcome}
    (h : ∀ p ∈ l, p.2 = .quiet ↔ p.1.quiet = true) (hp : p.2 = .quiet ↔ p.1.quiet = true) :
    ∀ q ∈ l ++ [p], q.2 = .quiet ↔ q.1.quiet = true := by
  intro q hq
  rcases List.mem_append.mp hq with hq | hq
  · exact h q hq
  · rw [List.mem_singleton] at hq
    subst hq
    exact hp

theorem Inv.step {s t : State} {a : Act} (h : Inv s) (hs : step s a = some t) : Inv t := by
  obtain ⟨h1, h2, h3, h4, h5, h6, h7, h8⟩ := h
  cases a with
  | close r =>
    obtain rfl := Option.some.inj hs
    refine ⟨?_, h2, h3, h4, h5, h6, h7, h8⟩
    show (s.called ++ [r]).Perm (s.closing ++ [r] ++ s.sent)
    refine (h1.append_right [r]).trans ?_
    rw [List.append_assoc, List.append_assoc]
    exact List.Perm.append_left _ List.perm_append_comm
  | send i =>
    simp only [Pipeline.step] at hs
    split at hs
    · cases hs
    rename_i r hr
    split at hs
    · rename_i hl
      obtain rfl := Option.some.inj hs
      have hf : s.finished = [] := List.length_eq_zero_iff.mp (by omega)
      refine ⟨?_, ?_, h3, h4, ?_, h6, h7, h8⟩
      · show s.called.Perm (s.closing.eraseIdx i ++ (s.sent ++ [r]))
        refine h1.trans ?_
        obtain ⟨hi, hri⟩ := List.getElem?_eq_some_iff.mp hr
        have := (List.getElem_cons_eraseIdx_perm hi).symm
        rw [hri] at this
        refine (this.append_right _).trans ?_
        rw [← List.append_assoc]
        exact (List.perm_append_singleton r _).symm
      · show s.sent ++ [r] = _
        rw [h2, hf]
        simp
      · show (s.finished ++ [r]).length ≤ 1
        rw [hf]; simp
    · cases hs
  | take =>
    simp only [Pipeline.step] at hs
    split at hs
    · rename_i r rest hw hf
      obtain rfl := Option.some.inj hs
      refine ⟨h1, ?_, h3, h4, ?_, h6, h7, h8⟩
      · show s.sent = _
        rw [h2, hw, hf]; simp
      · show rest.length ≤ 1
        rw [hf] at h5; simp at h5; rw [h5]; simp
    · cases hs
  | pass =>
    simp only [Pipeline.step] at hs
    split at hs
    · rename_i r hw
      split at hs
      · rename_i hl
        obtain rfl := Option.some.inj hs
        have hf : s.listener = [] := List.length_eq_zero_iff.mp (by omega)
        refine ⟨h1, ?_, h3, h4, h5, ?_, h7, h8⟩
        · show s.sent = _
          rw [h2, hw, hf]; simp
        · show (s.listener ++ [r]).length ≤ 1
          rw [hf]; simp
      · cases hs
    · cases hs
  | start =>
    simp only [Pipeline.step] at hs
    split at hs
    · rename_i r rest hp hl
      obtain rfl := Option.some.inj hs
      refine ⟨h1, ?_, h3, ?_, h5, ?_, h7, h8⟩
      · show s.sent = _
        rw [h2, hp, hl]; simp [Post.run]
      · intro r c h; cases h
      · show rest.length ≤ 1
        rw [hl] at h6; simp at h6; rw [h6]; simp
    · cases hs
  | skip =>
    simp only [Pipeline.step] at hs
    split at hs
    · rename_i r hp
      split at hs
      · rename_i hq
        obtain rfl := Option.some.inj hs
        refine ⟨h1, ?_, ?_, (fun _ _ h => by cases h), h5, h6, h7, quiet_append h8 (by simp [hq])⟩
        · show s.sent = _
          rw [h2, hp]; simp [Post.run]
        · show Pipeline.boards (s.ended ++ [(r, .quiet)]) = _
          rw [boards_append, h3]; simp [Pipeline.boards]
      · cases hs
    · cases hs
  | refuse =>
    simp only [Pipeline.step] at hs
    split at hs
    · rename_i r hp
      split at hs
      · cases hs
      · rename_i hq
        obtain rfl := Option.some.inj hs
        refine ⟨h1, ?_, ?_, (fun _ _ h => by cases h), h5, h6, h7, quiet_append h8 (by simp [hq])⟩
        · show s.sent = _
          rw [h2, hp]; simp [Post.run]
        · show Pipeline.boards (s.ended ++ [(r, .refused)]) = _
          rw [boards_append, h3]; simp [Pipeline.boards]
    · cases hs
  | accept =>
    simp only [Pipeline.step] at hs
    split at hs
    · rename_i r hp
      split at hs
      · cases hs
      · rename_i hq
        obtain rfl := Option.some.inj hs
        have fin : r.board = none →
            Inv { s with post := .idle, ended := s.ended ++ [(r, .announced)] } := by
          intro hb
          refine ⟨h1, ?_, ?_, (fun _ _ h => by cases h), h5, h6, h7, quiet_append h8 (by simp [hq])⟩
          · show s.sent = _
            rw [h2, hp]; simp [Post.run]
          · show Pipeline.boards (s.ended ++ [(r, .announced)]) = _
            rw [boards_append, h3]; simp [Pipeline.boards, hb]
        unfold handle
        split
        · rename_i c hc
          split_ifs with he
          · refine fin ?_
            unfold Run.board
            rw [hc]
            simp only
            rw [if_pos ((isEmpty_iff c).mp he)]
          · refine ⟨h1, ?_, h3, ?_, h5, h6, h7, h8⟩
            · show s.sent = _
              rw [h2, hp]; simp [Post.run]
            · intro r' c' h
              obtain ⟨rfl, rfl⟩ := Post.waiting.inj h
              refine ⟨?_, by simpa using hq⟩
              unfold Run.board
              rw [hc]
              simp only
              rw [if_neg (fun h => he ((isEmpty_iff _).mpr h))]
        · rename_i hc
          refine fin ?_
          unfold Run.board
          rw [hc]
    · cases hs
  | put =>
    simp only [Pipeline.step] at hs
    split at hs
    · rename_i r c hp
      split at hs
      · rename_i hl
        obtain rfl := Option.some.inj hs
        have hf : s.chan = [] := List.length_eq_zero_iff.mp (by omega)
        obtain ⟨hb, hq⟩ := h4 r c hp
        refine ⟨h1, ?_, ?_, (fun _ _ h => by cases h), h5, h6, ?_, quiet_append h8 (by simp [hq])⟩
        · show s.sent = _
          rw [h2, hp]; simp [Post.run]
        · show Pipeline.boards (s.ended ++ [(r, .announced)]) = fromGrader (s.received ++ (s.chan ++ [(true, c)]))
          rw [boards_append, h3, ← List.append_assoc, fromGrader_append _ [(true, c)]]
          simp [Pipeline.boards, hb, fromGrader]
        · show (s.chan ++ [(true, c)]).length ≤ 1
          rw [hf]; simp
      · cases hs
    · cases hs
  | other c =>
    simp only [Pipeline.step] at hs
    split at hs
    · cases hs
    · obtain rfl := Option.some.inj hs
      exact ⟨h1, h2, h3, h4, h5, h6, h7, h8⟩
  | putOther i =>
    simp only [Pipeline.step] at hs
    split at hs
    · cases hs
    rename_i c hc
    split at hs
    · rename_i hl
      obtain rfl := Option.some.inj hs
      have hf : s.chan = [] := List.length_eq_zero_iff.mp (by omega)
      refine ⟨h1, h2, ?_, h4, h5, h6, ?_, h8⟩
      · show Pipeline.boards s.ended = fromGrader (s.received ++ (s.chan ++ [(false, c)]))
        rw [h3, ← List.append_assoc, fromGrader_append _ [(false, c)]]
        simp [fromGrader]
      · show (s.chan ++ [(false, c)]).length ≤ 1
        rw [hf]; simp
    · cases hs
  | recv =>
    simp only [Pipeline.step] at hs
    split at hs
    · rename_i b c rest hl hc
      rw [hc] at h3 h7
      have h7' : rest = [] := by simpa using h7
      split at hs
      all_goals
        obtain rfl := Option.some.inj hs
        refine ⟨h1, h2, ?_, h4, h5, h6, by show rest.length ≤ 1; rw [h7']; simp, h8⟩
        show Pipeline.boards s.ended = fromGrader (s.received ++ [(b, c)] ++ rest)
        rw [h3]; simp
    · cases hs
  | expire c =>
    simp only [Pipeline.step] at hs
    split at hs
    · split at hs
      · split at hs
        all_goals
          obtain rfl := Option.some.inj hs
          exact ⟨h1, h2, h3, h4, h5, h6, h7, h8⟩
      · cases hs
    · cases hs
  | reply =>
    simp only [Pipeline.step] at hs
    split at hs
    · obtain rfl := Option.some.inj hs
      exact ⟨h1, h2, h3, h4, h5, h6, h7, h8⟩
    · cases hs

theorem Inv.exec {s t : State} {as : List Act} (h : Inv s) (he : exec s as = some t) : Inv t := by
  induction as generalizing s with
  | nil => obtain rfl := Option.some.inj he; exact h
  | cons a as ih =>
    simp only [Pipeline.exec] at he
    split at he
    · cases he
    · rename_i u hu
      exact ih (h.step hu) he

theorem inv_of_exec {as : List Act} {s : State} (h : exec {} as = some s) : Inv s := inv_init.exec h

/-! ### C119: nothing is lost on the way -/

/-- C119: the runs whose `Close` was reached are those still waiting to be sent and those that were sent; the latter
are, in the order in which they were sent, those that were processed, at most one that is being processed, and at most
three on the way to it. None is processed twice, none is skipped. -/
theorem C119_in_order {as : List Act} {s : State} (h : exec {} as = some s) :
    s.called.Perm (s.closing ++ s.sent) ∧
    ∃ onTheWay : List Run, s.sent = s.ended.map (·.1) ++ onTheWay ∧ onTheWay.length ≤ 4 := by
  obtain ⟨h1, h2, -, -, h5, h6, -, -⟩ := inv_of_exec h
  refine ⟨h1, s.post.run ++ s.listener ++ s.worker.toList ++ s.finished, by rw [h2]; simp, ?_⟩
  have hp : s.post.run.length ≤ 1 := by cases s.post <;> simp [Post.run]
  have hw : s.worker.toList.length ≤ 1 := by cases s.worker <;> simp
  simp only [List.length_append]
  omega

/-- C119: the contests that the scoreboard loop received from the grader's announcements, and the one that may be in
the channel, are those of the runs of contests whose announcement was answered with success, in the same order: none
is lost, none is doubled, none is made up. -/
theorem C119_received {as : List Act} {s : State} (h : exec {} as = some s) :
    (s.ended.filterMap fun p => if p.2 = .announced then p.1.board else none) =
      (s.received ++ s.chan).filterMap fun p => if p.1 then some p.2 else none :=
  (inv_of_exec h).boards

/-- What holds from a moment `s₀` on for a run that was not processed by then: once it is announced, its contest's
scoreboard was asked for since, or its contest is on the way to the loop or due at the end of its window. -/
structure Since (s₀ : State) (r : Run) (c : String) (s : State) : Prop where
  grows : s₀.asked.count c ≤ s.asked.count c
  due : (r, .announced) ∈ s.ended → (r, .announced) ∉ s₀.ended →
    s₀.asked.count c < s.asked.count c ∨ (∃ b, (b, c) ∈ s.chan) ∨ c ∈ s.dirty

theorem Since.mono {s₀ s t : State} {r : Run} {c : String} (h : Since s₀ r c s) (ha : t.asked = s.asked)
    (he : t.ended = s.ended) (hc : ∀ p ∈ s.chan, p ∈ t.chan) (hd : ∀ p ∈ s.dirty, p ∈ t.dirty) : Since s₀ r c t := by
  refine ⟨by rw [ha]; exact h.grows, fun h1 h2 => ?_⟩
  rw [he] at h1
  rw [ha]
  rcases h.due h1 h2 with h | ⟨b, h⟩ | h
  · exact Or.inl h
  · exact Or.inr (Or.inl ⟨b, hc _ h⟩)
  · exact Or.inr (Or.inr (hd _ h))

theorem Since.ended {s₀ s t : State} {r : Run} {c : String} {p : Run × Outcome} (h : Since s₀ r c s)
    (ha : t.asked = s.asked) (he : t.ended = s.ended ++ [p]) (hp : p ≠ (r, .announced))
    (hc : ∀ p ∈ s.chan, p ∈ t.chan) (hd : ∀ p ∈ s.dirty, p ∈ t.dirty) : Since s₀ r c t := by
  refine ⟨by rw [ha]; exact h.grows, fun h1 h2 => ?_⟩
  rw [he, List.mem_append, List.mem_singleton] at h1
  rw [ha]
  rcases h1 with h1 | h1
  · rcases h.due h1 h2 with h | ⟨b, h⟩ | h
    · exact Or.inl h
    · exact Or.inr (Or.inl ⟨b, hc _ h⟩)
    · exact Or.inr (Or.inr (hd _ h))
  · exact absurd h1.symm hp

theorem Since.step {s₀ s t : State} {r : Run} {c : String} {a : Act} (hi : Inv s) (hr : r.board = some c)
    (h : Since s₀ r c s) (hs : step s a = some t) : Since s₀ r c t := by
  cases a with
  | close r' =>
    obtain rfl := Option.some.inj hs
    exact h.mono rfl rfl (fun _ h => h) (fun _ h => h)
  | send i =>
    simp only [Pipeline.step] at hs
    split at hs
    · cases hs
    split at hs
    · obtain rfl := Option.some.inj hs
      exact h.mono rfl rfl (fun _ h => h) (fun _ h => h)
    · cases hs
  | take =>
    simp only [Pipeline.step] at hs
    split at hs
    · obtain rfl := Option.some.inj hs
      exact h.mono rfl rfl (fun _ h => h) (fun _ h => h)
    · cases hs
  | pass =>
    simp only [Pipeline.step] at hs
    split at hs
    · split at hs
      · obtain rfl := Option.some.inj hs
        exact h.mono rfl rfl (fun _ h => h) (fun _ h => h)
      · cases hs
    · cases hs
  | start =>
    simp only [Pipeline.step] at hs
    split at hs
    · obtain rfl := Option.some.inj hs
      exact h.mono rfl rfl (fun _ h => h) (fun _ h => h)
    · cases hs
  | skip =>
    simp only [Pipeline.step] at hs
    split at hs
    · split at hs
      · obtain rfl := Option.some.inj hs
        exact h.ended rfl rfl (by simp) (fun _ h => h) (fun _ h => h)
      · cases hs
    · cases hs
  | refuse =>
    simp only [Pipeline.step] at hs
    split at hs
    · split at hs
      · cases hs
      · obtain rfl := Option.some.inj hs
        exact h.ended rfl rfl (by simp) (fun _ h => h) (fun _ h => h)
    · cases hs
  | accept =>
    simp only [Pipeline.step] at hs
    split at hs
    · rename_i r' hp
      split at hs
      · cases hs
      · obtain rfl := Option.some.inj hs
        unfold handle
        have fin : r'.board = none →
            Since s₀ r c { s with post := .idle, ended := s.ended ++ [(r', .announced)] } := by
          intro hb
          refine h.ended rfl rfl ?_ (fun _ h => h) (fun _ h => h)
          intro e
          have : r' = r := congrArg Prod.fst e
          rw [this, hr] at hb
          cases hb
        split
        · rename_i c' hc
          split_ifs with he
          · refine fin ?_
            unfold Run.board
            rw [hc]
            simp only
            rw [if_pos ((isEmpty_iff _).mp he)]
          · exact h.mono rfl rfl (fun _ h => h) (fun _ h => h)
        · rename_i hc
          refine fin ?_
          unfold Run.board
          rw [hc]
    · cases hs
  | put =>
    simp only [Pipeline.step] at hs
    split at hs
    · rename_i r' c' hp
      split at hs
      · obtain rfl := Option.some.inj hs
        obtain ⟨hb, -⟩ := hi.waiting r' c' hp
        by_cases e : r' = r
        · subst e
          rw [hr] at hb
          obtain rfl := Option.some.inj hb
          refine ⟨h.grows, fun _ _ => Or.inr (Or.inl ⟨true, ?_⟩)⟩
          show (true, c) ∈ s.chan ++ [(true, c)]
          simp
        · refine h.ended rfl rfl ?_ (fun _ h => List.mem_append_left _ h) (fun _ h => h)
          intro e'
          exact e (congrArg Prod.fst e')
      · cases hs
    · cases hs
  | other c =>
    simp only [Pipeline.step] at hs
    split at hs
    · cases hs
    · obtain rfl := Option.some.inj hs
      exact h.mono rfl rfl (fun _ h => h) (fun _ h => h)
  | putOther i =>
    simp only [Pipeline.step] at hs
    split at hs
    · cases hs
    split at hs
    · obtain rfl := Option.some.inj hs
      exact h.mono rfl rfl (fun _ h => List.mem_append_left _ h) (fun _ h => h)
    · cases hs
  | recv =>
    simp only [Pipeline.step] at hs
    split at hs
    · rename_i b c' rest hl hc
      split at hs
      · obtain rfl := Option.some.inj hs
        refine ⟨h.grows, fun h1 h2 => ?_⟩
        rcases h.due h1 h2 with h | ⟨b', h⟩ | h
        · exact Or.inl h
        · rw [hc, List.mem_cons] at h
          rcases h with h | h
          · right; right
            obtain ⟨rfl, rfl⟩ := Prod.mk.inj h
            show c ∈ if s.dirty.contains c then s.dirty else s.dirty ++ [c]
            split
            · rename_i hd; simpa using hd
            · simp
          · exact Or.inr (Or.inl ⟨b', h⟩)
        · right; right
          show c ∈ if s.dirty.contains c' then s.dirty else s.dirty ++ [c']
          split
          · exact h
          · exact List.mem_append_left _ h
      · obtain rfl := Option.some.inj hs
        have hg : s.asked.count c ≤ (s.asked ++ [c']).count c := by rw [List.count_append]; omega
        refine ⟨Nat.le_trans h.grows hg, fun h1 h2 => ?_⟩
        have h0 := h
        rcases h.due h1 h2 with h | ⟨b', h⟩ | h
        · exact Or.inl (Nat.lt_of_lt_of_le h hg)
        · rw [hc, List.mem_cons] at h
          rcases h with h | h
          · left
            obtain ⟨rfl, rfl⟩ := Prod.mk.inj h
            show s₀.asked.count c < (s.asked ++ [c]).count c
            have := h0.grows
            rw [List.count_append]
            simp
            omega
          · exact Or.inr (Or.inl ⟨b', h⟩)
        · exact Or.inr (Or.inr h)
    · cases hs
  | expire c' =>
    simp only [Pipeline.step] at hs
    split at hs
    · split at hs
      · split at hs
        · obtain rfl := Option.some.inj hs
          have hg : s.asked.count c ≤ (s.asked ++ [c']).count c := by rw [List.count_append]; omega
          refine ⟨Nat.le_trans h.grows hg, fun h1 h2 => ?_⟩
          have h0 := h
          rcases h.due h1 h2 with h | ⟨b', h⟩ | h
          · exact Or.inl (Nat.lt_of_lt_of_le h hg)
          · exact Or.inr (Or.inl ⟨b', h⟩)
          · by_cases e : c = c'
            · subst e
              left
              show s₀.asked.count c < (s.asked ++ [c]).count c
              have := h0.grows
              rw [List.count_append]
              simp
              omega
            · right; right
              show c ∈ s.dirty.filter _
              rw [List.mem_filter]
              exact ⟨h, by simpa using e⟩
        · obtain rfl := Option.some.inj hs
          exact h.mono rfl rfl (fun _ h => h) (fun _ h => h)
      · cases hs
    · cases hs
  | reply =>
    simp only [Pipeline.step] at hs
    split at hs
    · obtain rfl := Option.some.inj hs
      exact h.mono rfl rfl (fun _ h => h) (fun _ h => h)
    · cases hs

/-- C119: between any moment before a contest's run is announced and any moment after it, the frontend was asked to
refresh that contest's scoreboard, or the request for it is still to come: the contest is in the channel, or its window
is marked. -/
theorem C119_refreshed {as₁ as₂ : List Act} {s₁ s₂ : State} (h₁ : exec {} as₁ = some s₁) (h₂ : exec s₁ as₂ = some s₂)
    {r : Run} {c : String} (hr : r.board = some c) (hbefore : (r, .announced) ∉ s₁.ended)
    (hafter : (r, .announced) ∈ s₂.ended) :
    s₁.asked.count c < s₂.asked.count c ∨ (∃ b, (b, c) ∈ s₂.chan) ∨ c ∈ s₂.dirty := by
  have key : ∀ (as : List Act) (s t : State), Inv s → Since s₁ r c s → exec s as = some t → Since s₁ r c t := by
    intro as
    induction as with
    | nil => intro s t _ h he; obtain rfl := Option.some.inj he; exact h
    | cons a as ih =>
      intro s t hi h he
      simp only [exec] at he
      split at he
      · cases he
      · rename_i u hu
        exact ih u t (hi.step hu) (h.step hi hr hu) he
  exact (key as₂ s₁ s₂ (inv_of_exec h₁) ⟨Nat.le_refl _, fun h h' => absurd h h'⟩ h₂).due hafter hbefore

end Quark.Pipeline
