import Mathlib.Data.List.Basic
import Mathlib.Tactic.SplitIfs

/-!
# C117: preloading while inputs are in use

`PreloadInputs` (/repo/common/inputmanager.go:322-364) runs in a goroutine of its own
(/repo/cmd/omegaup-runner/main.go:286-290, /repo/cmd/omegaup-grader/main.go:193-198) while runs are graded or requests
are answered. The runner gives it the lock that is held while a run is graded (cmd/omegaup-runner/main.go:615-624); the grader gives it a
lock that nobody else has.

`Add` is one step here: the LRU cache (not in /repo) is taken to load an input under its own lock. The files of an
input are there and complete, damaged, or gone; what that means is in `Persist` and `Preload`.
-/

namespace Quark.Preload.Race

inductive Files where
  | good
  | broken
  | gone
  deriving DecidableEq

/-- Where the preloading goroutine is. -/
inductive Pre (α : Type) where
  /-- about to take the lock for the first of these entries (common/inputmanager.go:349) -/
  | next (todo : List α)
  /-- has the lock, about to call `Add` (350) -/
  | locked (h : α) (todo : List α)
  /-- `Add` failed, about to remove the entry (352) -/
  | failed (h : α) (todo : List α)
  /-- about to give up the lock (357) -/
  | unlock (todo : List α)

/-- Where somebody who uses an input is: a run being graded (/repo/cmd/omegaup-runner/main.go:613-640) or a request
for an input (/repo/cmd/omegaup-grader/runner_handler.go:236-258). -/
inductive User (α : Type) where
  | idle
  /-- wants this input, not having called `Add` -/
  | wants (h : α)
  /-- has a reference to it -/
  | uses (h : α)
  /-- has given up the reference, or never got one, and still has the lock -/
  | leaving
  deriving DecidableEq

/-- Who has the lock that preloading takes. -/
inductive Holder where
  | free
  | pre
  | user (i : Nat)
  deriving DecidableEq

structure State (α : Type) where
  files : α → Files
  cached : α → Bool
  pre : Pre α
  users : Nat → User α
  lock : Holder := .free

variable {α : Type} [DecidableEq α]

def put {β : Type} (f : α → β) (h : α) (b : β) : α → β := fun x => if x = h then b else f x

/-- One step. `shared`: users of inputs take the lock that preloading takes (the runner), or do not (the grader). -/
inductive Step (shared : Bool) : State α → State α → Prop
  | preLock {s h todo} : s.pre = .next (h :: todo) → s.lock = .free →
      Step shared s { s with pre := .locked h todo, lock := .pre }
  /-- `Add` succeeds: the input is cached or verifies; the reference is given up at once. -/
  | preAdd {s h todo} : s.pre = .locked h todo → (s.cached h = true ∨ s.files h = .good) →
      Step shared s { s with pre := .unlock todo, cached := put s.cached h true }
  /-- `Add` fails: the input does not verify, is deleted, and cannot be made. -/
  | preFail {s h todo} : s.pre = .locked h todo → s.cached h = false → s.files h ≠ .good →
      Step shared s { s with pre := .failed h todo, files := put s.files h .gone }
  | preRemove {s h todo} : s.pre = .failed h todo →
      Step shared s { s with pre := .unlock todo, files := put s.files h .gone }
  | preUnlock {s todo} : s.pre = .unlock todo → Step shared s { s with pre := .next todo, lock := .free }
  /-- Somebody wants an input, and waits for the lock if there is one to wait for. -/
  | want {s i h} : s.users i = .idle → (shared = true → s.lock = .free) →
      Step shared s { s with users := put s.users i (.wants h), lock := if shared then .user i else s.lock }
  | get {s i h} : s.users i = .wants h → (s.cached h = true ∨ s.files h = .good) →
      Step shared s { s with users := put s.users i (.uses h), cached := put s.cached h true }
  /-- The input does not verify and is made again. -/
  | make {s i h} : s.users i = .wants h → s.cached h = false → s.files h ≠ .good →
      Step shared s { s with users := put s.users i (.uses h), cached := put s.cached h true,
                             files := put s.files h .good }
  /-- It cannot be made. -/
  | fail {s i h} : s.users i = .wants h → s.cached h = false → s.files h ≠ .good →
      Step shared s { s with users := put s.users i .leaving, files := put s.files h .gone }
  | release {s i h} : s.users i = .uses h → Step shared s { s with users := put s.users i .leaving }
  | leave {s i} : s.users i = .leaving →
      Step shared s { s with users := put s.users i .idle, lock := if shared then .free else s.lock }
  /-- The cache evicts an input that nobody refers to, which deletes its files. -/
  | evict {s h} : s.cached h = true → (∀ i, s.users i ≠ .uses h) →
      Step shared s { s with cached := put s.cached h false, files := put s.files h .gone }

inductive Reach (shared : Bool) (s0 : State α) : State α → Prop
  | refl : Reach shared s0 s0
  | tail {s s'} : Reach shared s0 s → Step shared s s' → Reach shared s0 s'

/-- A process that has just started: nothing is cached and nobody is there; the files can be in any state. -/
structure Fresh (s : State α) : Prop where
  cached : ∀ h, s.cached h = false
  pre : ∃ todo, s.pre = .next todo
  users : ∀ i, s.users i = .idle
  lock : s.lock = .free

/-! ### The runner -/

structure Inv (s : State α) : Prop where
  good : ∀ h, s.cached h = true → s.files h = .good
  uses : ∀ i h, s.users i = .uses h → s.cached h = true
  user : ∀ i, s.users i ≠ .idle → s.lock = .user i
  pre : (∃ todo, s.pre = .next todo) ∨ s.lock = .pre
  failed : ∀ h todo, s.pre = .failed h todo → s.cached h = false

omit [DecidableEq α] in
theorem Fresh.inv {s : State α} (h : Fresh s) : Inv s := by
  refine ⟨fun x hx => ?_, fun i x hx => ?_, fun i hi => absurd (h.users i) hi, Or.inl h.pre, ?_⟩
  · rw [h.cached] at hx; cases hx
  · rw [h.users] at hx; cases hx
  · intro x todo hx
    obtain ⟨t, ht⟩ := h.pre
    rw [ht] at hx; cases hx

theorem put_eq {β : Type} (f : α → β) (h x : α) (b : β) : put f h b x = if x = h then b else f x := rfl

theorem Inv.step {s s' : State α} (I : Inv s) (h : Step true s s') : Inv s' := by
  obtain ⟨i1, i2, i3, i4, i5⟩ := I
  have nextPre : ∀ {i : Nat}, s.users i ≠ .idle → ∃ todo, s.pre = .next todo := by
    intro i hi
    rcases i4 with h | h
    · exact h
    · rw [i3 i hi] at h; cases h
  have noUser : s.lock = .pre → ∀ i, s.users i = .idle := by
    intro hl i
    by_contra hi
    rw [i3 i hi] at hl; cases hl
  cases h with
  | preLock hp hl =>
    refine ⟨i1, i2, fun i hi => ?_, Or.inr rfl, fun x t hx => by cases hx⟩
    have := i3 i hi
    rw [hl] at this; cases this
  | @preAdd h t hp hc =>
    have hl : s.lock = .pre := by
      rcases i4 with ⟨t', h'⟩ | h'
      · rw [hp] at h'; cases h'
      · exact h'
    refine ⟨fun x hx => ?_, fun i x hx => ?_, i3, Or.inr hl, fun x t hx => by cases hx⟩
    · simp only [put_eq] at hx
      by_cases hxh : x = h
      · subst hxh
        rcases hc with hc | hc
        · exact i1 x hc
        · exact hc
      · rw [if_neg hxh] at hx; exact i1 x hx
    · simp only at hx
      rw [noUser hl i] at hx; cases hx
  | @preFail h t hp hc hf =>
    have hl : s.lock = .pre := by
      rcases i4 with ⟨t', h'⟩ | h'
      · rw [hp] at h'; cases h'
      · exact h'
    refine ⟨fun x hx => ?_, i2, i3, Or.inr hl, fun x t hx => ?_⟩
    · simp only [put_eq]
      by_cases hxh : x = h
      · subst hxh; simp only at hx; rw [hc] at hx; cases hx
      · rw [if_neg hxh]; exact i1 x hx
    · cases hx; exact hc
  | @preRemove h t hp =>
    have hl : s.lock = .pre := by
      rcases i4 with ⟨t', h'⟩ | h'
      · rw [hp] at h'; cases h'
      · exact h'
    refine ⟨fun x hx => ?_, i2, i3, Or.inr hl, fun x t hx => by cases hx⟩
    simp only [put_eq]
    by_cases hxh : x = h
    · subst hxh; simp only at hx; rw [i5 x t hp] at hx; cases hx
    · rw [if_neg hxh]; exact i1 x hx
  | preUnlock hp =>
    have hl : s.lock = .pre := by
      rcases i4 with ⟨t', h'⟩ | h'
      · rw [hp] at h'; cases h'
      · exact h'
    refine ⟨i1, i2, fun i hi => absurd (noUser hl i) hi, Or.inl ⟨_, rfl⟩, fun x t hx => by cases hx⟩
  | @want i h hi hl =>
    have hl := hl rfl
    refine ⟨i1, fun j x hx => ?_, fun j hj => ?_, ?_, i5⟩
    · simp only [put_eq] at hx
      split_ifs at hx
      exact i2 j x hx
    · simp only [put_eq] at hj
      by_cases hji : j = i
      · subst hji; rfl
      · rw [if_neg hji] at hj
        have := i3 j hj
        rw [hl] at this; cases this
    · rcases i4 with h' | h'
      · exact Or.inl h'
      · rw [hl] at h'; cases h'
  | @get i h hi hc =>
    refine ⟨fun x hx => ?_, fun j x hx => ?_, fun j hj => ?_, Or.inl (nextPre (i := i) (by rw [hi]; simp)), fun x t hx => ?_⟩
    · simp only [put_eq] at hx
      by_cases hxh : x = h
      · subst hxh
        rcases hc with hc | hc
        · exact i1 x hc
        · exact hc
      · rw [if_neg hxh] at hx; exact i1 x hx
    · simp only [put_eq] at hx ⊢
      by_cases hxh : x = h
      · rw [if_pos hxh]
      · rw [if_neg hxh]
        by_cases hji : j = i
        · rw [if_pos hji] at hx
          exact absurd (User.uses.inj hx).symm hxh
        · rw [if_neg hji] at hx; exact i2 j x hx
    · simp only [put_eq] at hj
      by_cases hji : j = i
      · subst hji; exact i3 j (by rw [hi]; simp)
      · rw [if_neg hji] at hj; exact i3 j hj
    · obtain ⟨t', ht'⟩ := nextPre (i := i) (by rw [hi]; simp)
      simp only at hx
      rw [ht'] at hx; cases hx
  | @make i h hi hc hf =>
    refine ⟨fun x hx => ?_, fun j x hx => ?_, fun j hj => ?_, Or.inl (nextPre (i := i) (by rw [hi]; simp)), fun x t hx => ?_⟩
    · simp only [put_eq] at hx ⊢
      by_cases hxh : x = h
      · rw [if_pos hxh]
      · rw [if_neg hxh] at hx ⊢; exact i1 x hx
    · simp only [put_eq] at hx ⊢
      by_cases hxh : x = h
      · rw [if_pos hxh]
      · rw [if_neg hxh]
        by_cases hji : j = i
        · rw [if_pos hji] at hx
          exact absurd (User.uses.inj hx).symm hxh
        · rw [if_neg hji] at hx; exact i2 j x hx
    · simp only [put_eq] at hj
      by_cases hji : j = i
      · subst hji; exact i3 j (by rw [hi]; simp)
      · rw [if_neg hji] at hj; exact i3 j hj
    · obtain ⟨t', ht'⟩ := nextPre (i := i) (by rw [hi]; simp)
      simp only at hx
      rw [ht'] at hx; cases hx
  | @fail i h hi hc hf =>
    refine ⟨fun x hx => ?_, fun j x hx => ?_, fun j hj => ?_, i4, i5⟩
    · simp only [put_eq]
      by_cases hxh : x = h
      · subst hxh; simp only at hx; rw [hc] at hx; cases hx
      · rw [if_neg hxh]; exact i1 x hx
    · simp only [put_eq] at hx
      by_cases hji : j = i
      · rw [if_pos hji] at hx; cases hx
      · rw [if_neg hji] at hx; exact i2 j x hx
    · simp only [put_eq] at hj
      by_cases hji : j = i
      · subst hji; exact i3 j (by rw [hi]; simp)
      · rw [if_neg hji] at hj; exact i3 j hj
  | @release i h hi =>
    refine ⟨i1, fun j x hx => ?_, fun j hj => ?_, i4, i5⟩
    · simp only [put_eq] at hx
      by_cases hji : j = i
      · rw [if_pos hji] at hx; cases hx
      · rw [if_neg hji] at hx; exact i2 j x hx
    · simp only [put_eq] at hj
      by_cases hji : j = i
      · subst hji; exact i3 j (by rw [hi]; simp)
      · rw [if_neg hji] at hj; exact i3 j hj
  | @leave i hi =>
    have hli := i3 i (by rw [hi]; simp)
    refine ⟨i1, fun j x hx => ?_, fun j hj => ?_, Or.inl (nextPre (i := i) (by rw [hi]; simp)), i5⟩
    · simp only [put_eq] at hx
      by_cases hji : j = i
      · rw [if_pos hji] at hx; cases hx
      · rw [if_neg hji] at hx; exact i2 j x hx
    · simp only [put_eq] at hj
      by_cases hji : j = i
      · rw [if_pos hji] at hj; exact absurd rfl hj
      · rw [if_neg hji] at hj
        have := i3 j hj
        rw [hli] at this
        exact absurd (Holder.user.inj this).symm hji
  | @evict h hc hu =>
    refine ⟨fun x hx => ?_, fun j x hx => ?_, i3, i4, fun x t hx => ?_⟩
    · simp only [put_eq] at hx ⊢
      by_cases hxh : x = h
      · rw [if_pos hxh] at hx; cases hx
      · rw [if_neg hxh] at hx ⊢; exact i1 x hx
    · simp only [put_eq]
      by_cases hxh : x = h
      · subst hxh; exact absurd hx (hu j)
      · rw [if_neg hxh]; exact i2 j x hx
    · simp only [put_eq]
      by_cases hxh : x = h
      · rw [if_pos hxh]
      · rw [if_neg hxh]; exact i5 x t hx

/-- C117 for the runner: whatever is preloaded, evicted and graded at the same time, an input that is in use is on
disk, complete, and so is every input in the cache. -/
theorem C117_runner_partial {s0 s : State α} (h0 : Fresh s0) (h : Reach true s0 s) :
    (∀ i x, s.users i = .uses x → s.files x = .good) ∧ ∀ x, s.cached x = true → s.files x = .good := by
  have I : Inv s := by
    induction h with
    | refl => exact h0.inv
    | tail _ hs ih => exact ih.step hs
  exact ⟨fun i x hx => I.good x (I.uses i x hx), I.good⟩

/-! ### The grader -/

/-- C117 is false of the grader: if the stored archive of an input is damaged, a request for it that comes between the
failure of preloading it and the removal of its file is left with an input whose file is gone. -/
theorem C117_grader_false (h : α) {s0 : State α} (h0 : Fresh s0) (hf : s0.files h = .broken)
    (hp : s0.pre = .next [h]) :
    ∃ s : State α, Reach false s0 s ∧ s.users 0 = .uses h ∧ s.cached h = true ∧ s.files h = .gone := by
  have hc := h0.cached h
  have hu := h0.users 0
  refine ⟨_, .tail (.tail (.tail (.tail (.tail .refl (.preLock (todo := []) hp h0.lock))
    (.preFail rfl hc (by simp [hf]))) (.want (i := 0) (h := h) hu (by simp)))
    (.make (i := 0) (h := h) (by simp [put_eq]) hc (by simp [put_eq]))) (.preRemove rfl), ?_, ?_, ?_⟩ <;>
    simp [put_eq]

/-- An input of the grader whose file is gone although it is cached stays so, whatever happens, until the cache evicts
it; requests for it go on to succeed meanwhile. -/
theorem C117_sticks {shared : Bool} {s s' : State α} {h : α} (hc : s.cached h = true) (hf : s.files h ≠ .good)
    (hs : Step shared s s') :
    (s'.cached h = true ∧ s'.files h ≠ .good) ∨ (s'.cached h = false ∧ s'.files h = .gone) := by
  cases hs with
  | preLock | preUnlock | want | release | leave => exact Or.inl ⟨hc, hf⟩
  | @preAdd x =>
    left
    simp only [put_eq]
    exact ⟨by split_ifs <;> simp [hc], hf⟩
  | @get i x =>
    left
    simp only [put_eq]
    exact ⟨by split_ifs <;> simp [hc], hf⟩
  | @preFail x t _ hc' =>
    have hne : h ≠ x := by rintro rfl; rw [hc] at hc'; cases hc'
    left
    simp only [put_eq, if_neg hne]
    exact ⟨hc, hf⟩
  | @preRemove x =>
    left
    simp only [put_eq]
    refine ⟨hc, ?_⟩
    split_ifs
    · simp
    · exact hf
  | @make i x _ hc' =>
    have hne : h ≠ x := by rintro rfl; rw [hc] at hc'; cases hc'
    left
    simp only [put_eq, if_neg hne]
    exact ⟨hc, hf⟩
  | @fail i x _ hc' =>
    have hne : h ≠ x := by rintro rfl; rw [hc] at hc'; cases hc'
    left
    simp only [put_eq, if_neg hne]
    exact ⟨hc, hf⟩
  | @evict x =>
    simp only [put_eq]
    by_cases hx : h = x
    · right; simp [hx]
    · left; rw [if_neg hx, if_neg hx]; exact ⟨hc, hf⟩

/-- Executions of the grader in which no entry is removed whose input has been cached since `Add` failed for it. -/
inductive Calm (s0 : State α) : State α → Prop
  | refl : Calm s0 s0
  | tail {s s'} : Calm s0 s → Step false s s' →
      (∀ h todo, s.pre = .failed h todo → s'.pre = .unlock todo → s.cached h = false) → Calm s0 s'

/-- C117 for those executions of the grader. -/
theorem C117_grader_partial {s0 s : State α} (h0 : Fresh s0) (h : Calm s0 s) :
    (∀ i x, s.users i = .uses x → s.files x = .good) ∧ ∀ x, s.cached x = true → s.files x = .good := by
  suffices I : (∀ x, s.cached x = true → s.files x = .good) ∧ ∀ i x, s.users i = .uses x → s.cached x = true from
    ⟨fun i x hx => I.1 x (I.2 i x hx), I.1⟩
  induction h with
  | refl => exact ⟨h0.inv.good, h0.inv.uses⟩
  | tail _ hs hq ih =>
    obtain ⟨i1, i2⟩ := ih
    cases hs with
    | preLock | preUnlock => exact ⟨i1, i2⟩
    | @preAdd h t hp hc =>
      refine ⟨fun x hx => ?_, fun i x hx => ?_⟩
      · simp only [put_eq] at hx
        by_cases hxh : x = h
        · subst hxh
          rcases hc with hc | hc
          · exact i1 x hc
          · exact hc
        · rw [if_neg hxh] at hx; exact i1 x hx
      · simp only [put_eq]
        split_ifs
        · rfl
        · exact i2 i x hx
    | @preFail h t hp hc hf =>
      refine ⟨fun x hx => ?_, i2⟩
      simp only [put_eq]
      by_cases hxh : x = h
      · subst hxh; simp only at hx; rw [hc] at hx; cases hx
      · rw [if_neg hxh]; exact i1 x hx
    | @preRemove h t hp =>
      refine ⟨fun x hx => ?_, i2⟩
      simp only [put_eq]
      by_cases hxh : x = h
      · subst hxh; simp only at hx; rw [hq x t hp rfl] at hx; cases hx
      · rw [if_neg hxh]; exact i1 x hx
    | @want i h hi hl =>
      refine ⟨i1, fun j x hx => ?_⟩
      simp only [put_eq] at hx
      split_ifs at hx
      exact i2 j x hx
    | @get i h hi hc =>
      refine ⟨fun x hx => ?_, fun j x hx => ?_⟩
      · simp only [put_eq] at hx
        by_cases hxh : x = h
        · subst hxh
          rcases hc with hc | hc
          · exact i1 x hc
          · exact hc
        · rw [if_neg hxh] at hx; exact i1 x hx
      · simp only [put_eq] at hx ⊢
        by_cases hxh : x = h
        · rw [if_pos hxh]
        · rw [if_neg hxh]
          by_cases hji : j = i
          · rw [if_pos hji] at hx
            exact absurd (User.uses.inj hx).symm hxh
          · rw [if_neg hji] at hx; exact i2 j x hx
    | @make i h hi hc hf =>
      refine ⟨fun x hx => ?_, fun j x hx => ?_⟩
      · simp only [put_eq] at hx ⊢
        by_cases hxh : x = h
        · rw [if_pos hxh]
        · rw [if_neg hxh] at hx ⊢; exact i1 x hx
      · simp only [put_eq] at hx ⊢
        by_cases hxh : x = h
        · rw [if_pos hxh]
        · rw [if_neg hxh]
          by_cases hji : j = i
          · rw [if_pos hji] at hx
            exact absurd (User.uses.inj hx).symm hxh
          · rw [if_neg hji] at hx; exact i2 j x hx
    | @fail i h hi hc hf =>
      refine ⟨fun x hx => ?_, fun j x hx => ?_⟩
      · simp only [put_eq]
        by_cases hxh : x = h
        · subst hxh; simp only at hx; rw [hc] at hx; cases hx
        · rw [if_neg hxh]; exact i1 x hx
      · simp only [put_eq] at hx
        by_cases hji : j = i
        · rw [if_pos hji] at hx; cases hx
        · rw [if_neg hji] at hx; exact i2 j x hx
    | @release i h hi =>
      refine ⟨i1, fun j x hx => ?_⟩
      simp only [put_eq] at hx
      by_cases hji : j = i
      · rw [if_pos hji] at hx; cases hx
      · rw [if_neg hji] at hx; exact i2 j x hx
    | @leave i hi =>
      refine ⟨i1, fun j x hx => ?_⟩
      simp only [put_eq] at hx
      by_cases hji : j = i
      · rw [if_pos hji] at hx; cases hx
      · rw [if_neg hji] at hx; exact i2 j x hx
    | @evict h hc hu =>
      refine ⟨fun x hx => ?_, fun j x hx => ?_⟩
      · simp only [put_eq] at hx ⊢
        by_cases hxh : x = h
        · rw [if_pos hxh] at hx; cases hx
        · rw [if_neg hxh] at hx ⊢; exact i1 x hx
      · simp only [put_eq]
        by_cases hxh : x = h
        · subst hxh; exact absurd hx (hu j)
        · rw [if_neg hxh]; exact i2 j x hx

/-! ### Examples -/

/-- Two inputs: 0 is damaged, 1 is not; both are to be preloaded. -/
def exStart : State Nat where
  files := fun h => if h = 0 then .broken else .good
  cached := fun _ => false
  pre := .next [0, 1]
  users := fun _ => .idle

theorem exStart_fresh : Fresh exStart := ⟨fun _ => rfl, ⟨_, rfl⟩, fun _ => rfl, rfl⟩

/-- On a runner: input 0 fails to preload and is removed, a run that needs it makes it again and uses it. -/
example : ∃ s, Reach true exStart s ∧ s.users 3 = .uses 0 ∧ s.files 0 = .good := by
  have r : Reach true exStart _ := .tail (.tail (.tail (.tail (.tail (.tail .refl (.preLock rfl rfl))
    (.preFail rfl rfl (by decide))) (.preRemove rfl)) (.preUnlock rfl)) (.want (i := 3) (h := 0) rfl (fun _ => rfl)))
    (.make (i := 3) (h := 0) rfl rfl (by decide))
  exact ⟨_, r, rfl, (C117_runner_partial exStart_fresh r).1 3 0 rfl⟩

/-- `C117_grader_false` applies: a process that has one damaged archive. -/
example : ∃ s : State Nat, Reach false { exStart with pre := .next [0] } s ∧ s.users 0 = .uses 0 ∧
    s.cached 0 = true ∧ s.files 0 = .gone :=
  C117_grader_false 0 ⟨fun _ => rfl, ⟨_, rfl⟩, fun _ => rfl, rfl⟩ rfl rfl

/-- `C117_grader_partial` applies when the request for the damaged input comes later. -/
example : ∃ s, Calm exStart s ∧ s.users 3 = .uses 0 ∧ s.files 0 = .good := by
  have r : Calm exStart _ := .tail (.tail (.tail (.tail (.tail .refl (.preLock rfl rfl) (by rintro h t ⟨⟩))
    (.preFail rfl rfl (by decide)) (by rintro h t ⟨⟩)) (.preRemove rfl) (by rintro h t ⟨⟩ -; rfl))
    (.want (i := 3) (h := 0) rfl (by simp)) (by rintro h t ⟨⟩))
    (.make (i := 3) (h := 0) rfl rfl (by decide)) (by rintro h t ⟨⟩)
  exact ⟨_, r, rfl, (C117_grader_partial exStart_fresh r).1 3 0 rfl⟩

end Quark.Preload.Race
