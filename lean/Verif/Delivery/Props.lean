import Verif.Delivery.Model
import Verif.Upload.Props
import Mathlib.Data.List.Basic
import Mathlib.Tactic.SplitIfs
import Mathlib.Algebra.BigOperators.Group.List.Basic

/-!
# Delivery: C110 to C112
-/

namespace Quark.Delivery

/-! ### C110: no deadlock -/

/-- Everybody is done. -/
structure Final (s : State) : Prop where
  sent : s.toSend = []
  closed : s.closed = true
  poster : s.poster = .done
  grader : ∃ ok, s.grader = .returned ok
  transport : s.transport = .eof ∨ s.transport = .ended

/-- What holds at any time for a body `b`. -/
structure Inv (b : Bytes) (err : Bool) (s : State) : Prop where
  isErr : s.err = err
  posting : s.poster = .posting → s.finished = [] ∧ s.atReport = none
  reported : s.poster ≠ .posting → ∃ r, s.finished = [r] ∧ s.atReport.isSome = true
  closed : s.closed = true → s.toSend = []
  grading : s.grader = .grading ↔ s.closed = false
  waiting : s.grader = .waiting → err = false
  returned : ∀ ok, s.grader = .returned ok → if err then ok = false else s.finished = [ok]
  done : s.poster = .done → s.closed = true
  idle : s.transport = .idle → s.poster = .posting ∧ s.wire = [] ∧ s.toSend.flatten = b
  eof : s.transport = .eof → s.closed = true
  reading : s.transport = .reading → s.poster = .posting → s.wire ++ s.toSend.flatten = b
  writing : ∀ c, s.transport = .writing c → s.poster = .posting → s.wire ++ (c ++ s.toSend.flatten) = b
  whole : s.transport = .eof → s.poster = .posting → s.wire = b
  part : s.poster = .posting → s.wire <+: b
  report : ∀ w full, s.atReport = some (w, full) → w <+: b ∧ (full = true → w = b)

theorem inv_init (chunks : List Bytes) (err : Bool) : Inv chunks.flatten err (init chunks err) where
  isErr := rfl
  posting := fun _ => ⟨rfl, rfl⟩
  reported := fun h => absurd rfl h
  closed := fun h => by simp [init] at h
  grading := by simp [init]
  waiting := fun h => by simp [init] at h
  returned := fun ok h => by simp [init] at h
  done := fun h => by simp [init] at h
  idle := fun _ => ⟨rfl, rfl, rfl⟩
  eof := fun h => by simp [init] at h
  reading := fun h => by simp [init] at h
  writing := fun c h => by simp [init] at h
  whole := fun h => by simp [init] at h
  part := fun _ => by simp [init]
  report := fun w full h => by simp [init] at h

theorem Inv.due {b : Bytes} {err : Bool} {s t : State} (h : Inv b err s) (hs : Due s t) : Inv b err t := by
  cases hs with
  | badRequest h1 h2 =>
    obtain ⟨hp, hr⟩ := h.posting h1
    obtain ⟨_, hw, _⟩ := h.idle h2
    refine ⟨h.isErr, ?_, ?_, h.closed, h.grading, h.waiting, ?_, ?_, ?_, ?_, ?_, ?_, ?_, ?_, ?_⟩
    · simp
    · intro _; exact ⟨false, by simp [hp]⟩
    · intro ok ho
      have := h.returned ok ho
      split_ifs at this ⊢
      · exact this
      · rw [hp] at this; simp at this
    · simp
    · simp
    · simp
    · simp
    · simp
    · simp
    · simp
    · intro w full he
      simp only [Option.some.injEq, Prod.mk.injEq] at he
      rw [← he.1, hw, ← he.2]; simp
  | connect h1 h2 =>
    obtain ⟨_, hw, hf⟩ := h.idle h2
    exact ⟨h.isErr, h.posting, h.reported, h.closed, h.grading, h.waiting, h.returned, h.done, by simp, by simp,
      fun _ _ => by simp [hw, hf], by simp, by simp, h.part, h.report⟩
  | noConnection h1 h2 =>
    exact ⟨h.isErr, h.posting, h.reported, h.closed, h.grading, h.waiting, h.returned, h.done, by simp, by simp,
      by simp, by simp, by simp, h.part, h.report⟩
  | @toTransport c cs h1 h2 =>
    refine ⟨h.isErr, h.posting, h.reported, ?_, h.grading, h.waiting, h.returned, h.done, by simp, by simp,
      by simp, ?_, by simp, h.part, h.report⟩
    · intro hc
      have := h.closed hc
      rw [h1] at this; simp at this
    · intro c' hc' hp
      have := h.reading h2 hp
      simp only [Transport.writing.injEq] at hc'
      rw [← hc']
      rw [h1] at this
      simpa using this
  | @toDrain c cs h1 h2 =>
    refine ⟨h.isErr, h.posting, h.reported, ?_, h.grading, h.waiting, h.returned, h.done, by simp [h2], by simp [h2],
      by simp [h2], by simp [h2], by simp [h2], h.part, h.report⟩
    intro hc
    have := h.closed hc
    rw [h1] at this; simp at this
  | @toPoster c cs h1 h2 =>
    refine ⟨h.isErr, h.posting, h.reported, ?_, h.grading, h.waiting, h.returned, h.done, ?_, h.eof,
      by simp [h2], by simp [h2], by simp [h2], by simp [h2], h.report⟩
    · intro hc
      have := h.closed hc
      rw [h1] at this; simp at this
    · intro hi
      have := (h.idle hi).1
      rw [h2] at this; simp at this
  | close h1 h2 =>
    have hg := h.grading.2 h2
    refine ⟨h.isErr, h.posting, h.reported, fun _ => h1, ?_, ?_, ?_, fun _ => rfl, h.idle, fun _ => rfl,
      h.reading, h.writing, h.whole, h.part, h.report⟩
    · simp only [Bool.true_eq_false, iff_false]
      split_ifs <;> simp
    · rw [h.isErr]
      cases err <;> simp
    · rw [h.isErr]
      cases err
      · simp
      · intro ok ho
        simpa using ho.symm
  | @some a c h1 h2 h3 =>
    refine ⟨h.isErr, h.posting, h.reported, h.closed, h.grading, h.waiting, h.returned, h.done, by simp, by simp,
      by simp, ?_, by simp, ?_, h.report⟩
    · intro c' hc' hp
      simp only [Transport.writing.injEq] at hc'
      rw [← hc', ← h.writing _ h1 hp]
      simp
    · intro hp
      refine ⟨c ++ s.toSend.flatten, ?_⟩
      rw [← h.writing _ h1 hp]
      simp
  | @sent c h1 =>
    refine ⟨h.isErr, h.posting, h.reported, h.closed, h.grading, h.waiting, h.returned, h.done, by simp, by simp,
      ?_, by simp, by simp, ?_, h.report⟩
    · intro _ hp
      rw [← h.writing _ h1 hp]; simp
    · intro hp
      refine ⟨s.toSend.flatten, ?_⟩
      rw [← h.writing _ h1 hp]; simp
  | @failed a c h1 =>
    refine ⟨h.isErr, h.posting, h.reported, h.closed, h.grading, h.waiting, h.returned, h.done, by simp, by simp,
      by simp, by simp, by simp, ?_, h.report⟩
    intro hp
    refine ⟨c ++ s.toSend.flatten, ?_⟩
    rw [← h.writing _ h1 hp]; simp
  | eof h1 h2 h3 =>
    refine ⟨h.isErr, h.posting, h.reported, h.closed, h.grading, h.waiting, h.returned, h.done, by simp, fun _ => h2,
      by simp, by simp, ?_, h.part, h.report⟩
    intro _ hp
    have := h.reading h1 hp
    rw [h3] at this
    simpa using this
  | drained h1 h2 h3 =>
    exact ⟨h.isErr, h.posting, h.reported, h.closed, h.grading, h.waiting, h.returned, h.done, by simp, by simp,
      by simp, by simp, by simp, h.part, h.report⟩
  | answer ok h1 h2 =>
    obtain ⟨hp, hr⟩ := h.posting h1
    refine ⟨h.isErr, by simp, fun _ => ⟨ok, by simp [hp]⟩, h.closed, h.grading, h.waiting, ?_, by simp, by simp [h2],
      h.eof, by simp, by simp, by simp, by simp, ?_⟩
    · intro o ho
      have := h.returned o ho
      split_ifs at this ⊢
      · exact this
      · rw [hp] at this; simp at this
    · intro w full he
      simp only [Option.some.injEq, Prod.mk.injEq] at he
      rw [← he.1, h.whole h2 h1]; simp
  | gaveUp h1 h2 =>
    obtain ⟨hp, hr⟩ := h.posting h1
    refine ⟨h.isErr, by simp, fun _ => ⟨false, by simp [hp]⟩, h.closed, h.grading, h.waiting, ?_, by simp, by simp [h2],
      h.eof, by simp, by simp, by simp, by simp, ?_⟩
    · intro o ho
      have := h.returned o ho
      split_ifs at this ⊢
      · exact this
      · rw [hp] at this; simp at this
    · intro w full he
      simp only [Option.some.injEq, Prod.mk.injEq] at he
      rw [← he.1, ← he.2]
      exact ⟨h.part h1, by simp⟩
  | posterDone h1 h2 h3 =>
    refine ⟨h.isErr, by simp, fun _ => h.reported (by rw [h1]; simp), h.closed, h.grading, h.waiting, h.returned,
      fun _ => h2, ?_, h.eof, by simp, by simp, by simp, by simp, h.report⟩
    intro hi
    have := (h.idle hi).1
    rw [h1] at this; simp at this
  | @receive r rs h1 h2 =>
    have he := h.waiting h1
    have hne : s.poster ≠ .posting := by
      intro hp
      have := (h.posting hp).1
      rw [h2] at this; simp at this
    obtain ⟨r', hf, _⟩ := h.reported hne
    refine ⟨h.isErr, h.posting, h.reported, h.closed, ?_, by simp, ?_, h.done, h.idle, h.eof, h.reading, h.writing,
      h.whole, h.part, h.report⟩
    · have hc : s.closed ≠ false := fun hc => by
        have := h.grading.2 hc
        rw [h1] at this; simp at this
      simp [hc]
    · intro ok ho
      simp only [Grader.returned.injEq] at ho
      subst ho
      rw [he]
      simp only [Bool.false_eq_true, if_false]
      rw [h2] at hf ⊢
      simp at hf
      simp [hf]

theorem Inv.chance {b : Bytes} {err : Bool} {s t : State} (h : Inv b err s) (hs : Chance s t) : Inv b err t := by
  cases hs with
  | early ok h1 hne h2 =>
    obtain ⟨hp, hr⟩ := h.posting h1
    refine ⟨h.isErr, by simp, fun _ => ⟨ok, by simp [hp]⟩, h.closed, h.grading, h.waiting, ?_, by simp,
      fun hi => absurd hi hne, h.eof, by simp, by simp, by simp, by simp, ?_⟩
    · intro o ho
      have := h.returned o ho
      split_ifs at this ⊢
      · exact this
      · rw [hp] at this; simp at this
    · intro w full he
      simp only [Option.some.injEq, Prod.mk.injEq] at he
      rw [← he.1, ← he.2]
      exact ⟨h.part h1, by simp⟩

theorem Inv.step {b : Bytes} {err : Bool} {s t : State} (h : Inv b err s) (hs : Step s t) : Inv b err t :=
  hs.elim h.due h.chance

theorem Inv.steps {chunks : List Bytes} {err : Bool} {s : State} {n : Nat} (h : Steps (init chunks err) s n) :
    Inv chunks.flatten err s := by
  generalize hi : init chunks err = s0 at h
  induction h with
  | refl => subst hi; exact inv_init chunks err
  | tail _ h2 ih => exact ih.step h2

/-- **C110** (no deadlock). Whatever the network does, as long as its operations end in one way or another: at any time
somebody can go on, until all three are done. -/
theorem C110_progress {chunks : List Bytes} {err : Bool} {s : State} {n : Nat} (h : Steps (init chunks err) s n)
    (hf : ¬ Final s) : ∃ t, Due s t := by
  have hi := Inv.steps h
  cases hs : s.toSend with
  | cons c cs =>
    have hc : s.closed = false := by
      cases hc : s.closed with
      | false => rfl
      | true => have := hi.closed hc; rw [hs] at this; simp at this
    cases hp : s.poster with
    | closing => exact ⟨_, .toPoster hs hp⟩
    | done => have := hi.done hp; rw [hc] at this; simp at this
    | posting =>
      cases ht : s.transport with
      | idle => exact ⟨_, .connect hp ht⟩
      | reading => exact ⟨_, .toTransport hs ht⟩
      | writing c => exact ⟨_, .sent ht⟩
      | eof => have := hi.eof ht; rw [hc] at this; simp at this
      | draining => exact ⟨_, .toDrain hs ht⟩
      | ended => exact ⟨_, .gaveUp hp ht⟩
  | nil =>
    cases hc : s.closed with
    | false => exact ⟨_, .close hs hc⟩
    | true =>
      cases ht : s.transport with
      | idle => exact ⟨_, .connect (hi.idle ht).1 ht⟩
      | reading => exact ⟨_, .eof ht hc hs⟩
      | writing c => exact ⟨_, .sent ht⟩
      | draining => exact ⟨_, .drained ht hc hs⟩
      | eof =>
        cases hp : s.poster with
        | posting => exact ⟨_, .answer true hp ht⟩
        | closing => exact ⟨_, .posterDone hp hc hs⟩
        | done =>
          obtain ⟨r, hr, _⟩ := hi.reported (by rw [hp]; simp)
          cases hg : s.grader with
          | grading => have := hi.grading.1 hg; rw [hc] at this; simp at this
          | waiting => exact ⟨_, .receive hg hr⟩
          | returned ok => exact absurd ⟨hs, hc, hp, ⟨ok, hg⟩, Or.inl ht⟩ hf
      | ended =>
        cases hp : s.poster with
        | posting => exact ⟨_, .gaveUp hp ht⟩
        | closing => exact ⟨_, .posterDone hp hc hs⟩
        | done =>
          obtain ⟨r, hr, _⟩ := hi.reported (by rw [hp]; simp)
          cases hg : s.grader with
          | grading => have := hi.grading.1 hg; rw [hc] at this; simp at this
          | waiting => exact ⟨_, .receive hg hr⟩
          | returned ok => exact absurd ⟨hs, hc, hp, ⟨ok, hg⟩, Or.inr ht⟩ hf

def Transport.weight : Transport → Nat
  | .idle => 4
  | .reading => 3
  | .writing c => c.length + 4
  | .draining => 2
  | .eof => 1
  | .ended => 1

def Poster.weight : Poster → Nat
  | .posting => 2
  | .closing => 1
  | .done => 0

def Grader.weight : Grader → Nat
  | .grading => 2
  | .waiting => 1
  | .returned _ => 0

def load (cs : List Bytes) : Nat := (cs.map fun c => c.length + 3).sum

def State.weight (s : State) : Nat :=
  load s.toSend + s.transport.weight + s.poster.weight + s.grader.weight

theorem weight_step {b : Bytes} {err : Bool} {s t : State} (hi : Inv b err s) (h : Step s t) : t.weight < s.weight := by
  rcases h with h | h
  · cases h with
    | badRequest h1 h2 => simp [State.weight, h1, h2, Transport.weight, Poster.weight]
    | connect h1 h2 => simp [State.weight, h2, Transport.weight]
    | noConnection h1 h2 => simp [State.weight, h2, Transport.weight]
    | toTransport h1 h2 => simp [State.weight, h1, h2, Transport.weight, load]; try omega
    | toDrain h1 h2 => simp [State.weight, h1, load]
    | toPoster h1 h2 => simp [State.weight, h1, load]
    | close h1 h2 =>
      have hg := hi.grading.2 h2
      simp only [State.weight, hg]
      split_ifs <;> simp [Grader.weight]
    | @some a c h1 h2 h3 =>
      have : 0 < a.length := List.length_pos_iff.2 h2
      simp only [State.weight, h1, Transport.weight, List.length_append]; omega
    | sent h1 => simp only [State.weight, h1, Transport.weight]; omega
    | @failed a c h1 => simp only [State.weight, h1, Transport.weight, List.length_append]; omega
    | eof h1 h2 h3 => simp [State.weight, h1, Transport.weight]
    | drained h1 h2 h3 => simp [State.weight, h1, Transport.weight]
    | answer ok h1 h2 => simp [State.weight, h1, Poster.weight]
    | gaveUp h1 h2 => simp [State.weight, h1, Poster.weight]
    | posterDone h1 h2 h3 => simp [State.weight, h1, Poster.weight]
    | receive h1 h2 => simp [State.weight, h1, Grader.weight]
  · cases h with
    | early ok h1 h2 h3 => simp [State.weight, h1, Poster.weight]

/-- **C110** (it ends). Every execution has a bounded number of steps, by the number of bytes and of writes of the
body: together with `C110_progress`, every execution that goes on while it can reaches the end. -/
theorem C110_ends {chunks : List Bytes} {err : Bool} {s : State} {n : Nat} (h : Steps (init chunks err) s n) :
    n ≤ (chunks.map fun c => c.length + 3).sum + 8 := by
  suffices hw : n + s.weight ≤ (init chunks err).weight by
    have : (init chunks err).weight = (chunks.map fun c => c.length + 3).sum + 8 := by
      simp [init, State.weight, Transport.weight, Poster.weight, Grader.weight, load]
    omega
  generalize hi : init chunks err = s0 at h
  induction h with
  | refl => simp
  | tail h1 h2 ih =>
    have hinv : Inv chunks.flatten err _ := Inv.steps (by rw [hi]; exact h1)
    have := weight_step hinv h2
    omega

/-- **C110** (one report). Never more than one report is sent on `finished`, whose capacity is one, so sending it does
not block; when all are done there is exactly one, and `processRun` returns it (or the error of grading). -/
theorem C110_once {chunks : List Bytes} {err : Bool} {s : State} {n : Nat} (h : Steps (init chunks err) s n) :
    s.finished.length ≤ 1 ∧
    (Final s → ∃ r, s.finished = [r] ∧ s.grader = .returned (if err then false else r)) := by
  have hi := Inv.steps h
  constructor
  · by_cases hp : s.poster = .posting
    · rw [(hi.posting hp).1]; simp
    · obtain ⟨r, hr, _⟩ := hi.reported hp
      rw [hr]; simp
  · intro hf
    obtain ⟨r, hr, _⟩ := hi.reported (by rw [hf.poster]; simp)
    obtain ⟨ok, hok⟩ := hf.grader
    refine ⟨r, hr, ?_⟩
    have := hi.returned ok hok
    rw [hok]
    cases err with
    | true => simpa using this
    | false =>
      simp only [Bool.false_eq_true, if_false] at this ⊢
      rw [hr] at this
      simpa using this.symm

/-! ### C111: the bytes -/

/-- **C111.** However grading, sending and failures interleave: what was on the wire when the request was answered or
given up is a beginning of the body, and it is all of it if the end of the request was sent. -/
theorem C111_body {chunks : List Bytes} {err : Bool} {s : State} {n : Nat} (h : Steps (init chunks err) s n)
    {w : Bytes} {full : Bool} (hr : s.atReport = some (w, full)) :
    w <+: chunks.flatten ∧ (full = true → w = chunks.flatten) := (Inv.steps h).report w full hr

/-- **C111** (while sending). Before that, what is on the wire is a beginning of the body. -/
theorem C111_sending {chunks : List Bytes} {err : Bool} {s : State} {n : Nat} (h : Steps (init chunks err) s n)
    (hp : s.poster = .posting) : s.wire <+: chunks.flatten := (Inv.steps h).part hp

theorem Steps.trans {s t u : State} {n m : Nat} (h1 : Steps s t n) (h2 : Steps t u m) : Steps s u (n + m) := by
  induction h2 with
  | refl => exact h1
  | tail _ h ih => exact .tail ih h

/-- A run of three chunks to its end. -/
example : ∃ s n, Steps (init [[1, 2], [], [3]] false) s n ∧ Final s ∧ s.atReport = some ([1, 2, 3], true) ∧
    s.grader = .returned true := by
  have h := Steps.refl (s := init [[1, 2], [], [3]] false)
  have h := h.tail (.inl (.connect rfl rfl))
  have h := h.tail (.inl (.toTransport rfl rfl))
  have h := h.tail (.inl (.some (a := [1]) (b := [2]) rfl (by simp) (by simp)))
  have h := h.tail (.inl (.sent rfl))
  have h := h.tail (.inl (.toTransport rfl rfl))
  have h := h.tail (.inl (.sent rfl))
  have h := h.tail (.inl (.toTransport rfl rfl))
  have h := h.tail (.inl (.sent rfl))
  have h := h.tail (.inl (.close rfl rfl))
  have h := h.tail (.inl (.eof rfl rfl rfl))
  have h := h.tail (.inl (.answer true rfl rfl))
  have h := h.tail (.inl (.posterDone rfl rfl rfl))
  have h := h.tail (.inl (.receive rfl rfl))
  exact ⟨_, _, h, ⟨rfl, rfl, rfl, ⟨_, rfl⟩, .inl rfl⟩, rfl, rfl⟩

/-- After an early answer the poster drains while the transport still sends: the wire then has a gap, which is why
C111 speaks of the time of the answer. And such an answer counts as a success, although only one byte was sent. -/
theorem C111_gap_afterwards : ∃ s n, Steps (init [[1], [2], [3]] false) s n ∧ Final s ∧ s.wire = [1, 3] ∧
    s.atReport = some ([1], false) ∧ s.grader = .returned true := by
  have h := Steps.refl (s := init [[1], [2], [3]] false)
  have h := h.tail (.inl (.connect rfl rfl))
  have h := h.tail (.inl (.toTransport rfl rfl))
  have h := h.tail (.inl (.sent rfl))
  have h := h.tail (.inr (.early true rfl (by simp) (by simp)))
  have h := h.tail (.inl (.toPoster rfl rfl))
  have h := h.tail (.inl (.toTransport rfl rfl))
  have h := h.tail (.inl (.sent rfl))
  have h := h.tail (.inl (.close rfl rfl))
  have h := h.tail (.inl (.eof rfl rfl rfl))
  have h := h.tail (.inl (.posterDone rfl rfl rfl))
  have h := h.tail (.inl (.receive rfl rfl))
  exact ⟨_, _, h, ⟨rfl, rfl, rfl, ⟨_, rfl⟩, .inl rfl⟩, rfl, rfl, rfl⟩

/-! ### C112: what is sent and what the grader records -/

/-- The result that is to be sent: the one of grading, a judge error when the input could not be had or grading failed;
with `-noop`, after the fix-up. -/
def Reports {R : Type} (noop : Bool) (fixup : R → R) (judgeError : R) (g : Grading R) (r : R) : Prop :=
  ∃ d, r = (if noop then fixup d else d) ∧
    ((g.input = true ∧ g.result = some d) ∨ ((g.input = false ∨ g.result = none) ∧ d = judgeError))

theorem reports_exists {R : Type} (noop : Bool) (fixup : R → R) (judgeError : R) (g : Grading R) :
    ∃ r, Reports noop fixup judgeError g r := by
  cases hi : g.input with
  | false => exact ⟨_, judgeError, rfl, .inr ⟨.inl hi, rfl⟩⟩
  | true =>
    cases hr : g.result with
    | none => exact ⟨_, judgeError, rfl, .inr ⟨.inr hr, rfl⟩⟩
    | some d => exact ⟨_, d, rfl, .inl ⟨hi, hr⟩⟩

/-- **C112** (what is sent). The parts, in this order: `files.zip`, exactly if the input is there; one `details.json`
with the result; `logs.txt` and `tracing.json` if there are any. No error is returned. -/
theorem C112_parts {R : Type} {noop : Bool} {fixup : R → R} {judgeError : R} {encodes : R → Bool} {g : Grading R}
    {logs : Option String} {trace : Option (List String)} {r : R} (hr : Reports noop fixup judgeError g r)
    (he : encodes r = true) :
    body noop fixup judgeError encodes g logs trace =
      ((if g.input then [Sent.files g.zip] else []) ++ [.details (some r)] ++ logs.toList.map .logs ++
        trace.toList.map .tracing, false) := by
  obtain ⟨d, hd, h⟩ := hr
  rcases h with ⟨hi, hg⟩ | ⟨hg, hj⟩
  · cases noop <;> cases logs <;> cases trace <;> simp_all [body, gradeRun]
  · rcases hg with hg | hg
    · cases noop <;> cases logs <;> cases trace <;> simp_all [body, gradeRun]
    · cases hi : g.input <;> cases noop <;> cases logs <;> cases trace <;> simp_all [body, gradeRun]

/-- **C112** (a result that cannot be encoded). Then `details.json` is empty, nothing follows, and an error is
returned. -/
theorem C112_unencodable {R : Type} {noop : Bool} {fixup : R → R} {judgeError : R} {encodes : R → Bool} {g : Grading R}
    {logs : Option String} {trace : Option (List String)} {r : R} (hr : Reports noop fixup judgeError g r)
    (he : encodes r = false) :
    body noop fixup judgeError encodes g logs trace =
      ((if g.input then [Sent.files g.zip] else []) ++ [.details none], true) := by
  obtain ⟨d, hd, h⟩ := hr
  rcases h with ⟨hi, hg⟩ | ⟨hg, hj⟩
  · cases noop <;> simp_all [body, gradeRun]
  · rcases hg with hg | hg
    · cases noop <;> simp_all [body, gradeRun]
    · cases hi : g.input <;> cases noop <;> simp_all [body, gradeRun]

open Upload (Part Upload Result Render) in
/-- How a part arrives at the grader, if it arrives whole and can be stored. -/
def arrives : Sent Result → Part
  | .files zip => .file "files.zip" zip true true
  | .details d => .details d
  | .logs t => .logs t true
  | .tracing es => .tracing (.events es)

/-- A part of which only a beginning arrives: a beginning of a file, or what cannot be decoded. -/
inductive Cut : Sent Upload.Result → Upload.Part → Prop
  | files {zip c} : Cut (.files zip) (.file "files.zip" c true false)
  | details {d} : Cut (.details d) (.details none)
  | logs {t c} : Cut (.logs t) (.logs c false)
  | tracing {es} : Cut (.tracing es) (.tracing .undecodable)

/-- An upload of a body of the runner to a grader that can write to its disk. -/
structure Arrives (name : String) (u : Upload.Upload) : Prop where
  runner : u.runner = name
  mkdirOk : u.mkdirOk = true
  multipart : u.multipart = true

theorem requeue_last (e : Upload.Render) (full : Bool) (r : Upload.Run) :
    Upload.requeue e full true r =
      if r.tries ≤ 1 then Upload.close e { r with tries := r.tries - 1 }
      else if full then Upload.close e { r with tries := 1, attempt := r.attempt + 1 }
      else { r with tries := 1, attempt := r.attempt + 1, phase := .queued } := by
  by_cases h : r.tries ≤ 1
  · have h' : r.tries - 1 ≤ 0 := by omega
    simp only [Upload.requeue, if_pos h, if_pos h']
  · have h' : ¬ r.tries - 1 ≤ 0 := by omega
    simp only [Upload.requeue, if_neg h, if_neg h', if_true]

open Upload (Result Render) in
/-- **C112** (end to end). When the whole body arrives, the run gets the result that was sent, with the runner's name,
and the logs and events sent; it is answered with 200 and, unless the verdict is JE, the run is closed. -/
theorem C112_recorded {noop : Bool} {fixup : Result → Result} {judgeError : Result} {encodes : Result → Bool}
    {g : Grading Result} {logs : Option String} {trace : Option (List String)} {r : Result}
    (hr : Reports noop fixup judgeError g r) (he : encodes r = true) (e : Render) (store full : Bool)
    (run : Upload.Run) (hrun : run.phase = .inflight) {name : String} {u : Upload.Upload} (hu : Arrives name u)
    (hp : u.parts = (body noop fixup judgeError encodes g logs trace).1.map arrives) (hend : u.ended = true) :
    let (run', status) := Upload.step e store run (.upload run.attempt u full)
    status = some 200 ∧
    run'.result = { r with judgedBy := name } ∧
    run'.logs = run.logs ++ logs.toList.map (fun t => (name, t)) ∧
    run'.events = run.events ++ (trace.getD []) ∧
    (r.verdict ≠ "JE" → run'.phase = .closed ∧ run'.tries = run.tries ∧
      (store = true → g.input = true → run'.dir "files.zip" = some g.zip)) ∧
    (r.verdict = "JE" → run'.tries = (if run.tries ≤ 1 then run.tries - 1 else 1) ∧
      (run'.phase = .closed ↔ run.tries ≤ 1 ∨ full = true) ∧
      (run'.phase ≠ .closed → run'.phase = .queued ∧ run'.attempt = run.attempt + 1)) := by
  have hb := C112_parts (logs := logs) (trace := trace) hr he
  rw [hb] at hp
  obtain ⟨hu1, hu2, hu3⟩ := hu
  by_cases hv : r.verdict = "JE"
  · by_cases ht : run.tries ≤ 1 <;> cases full <;> cases hi : g.input <;> cases logs <;> cases trace <;>
      cases store <;>
      simp_all [Upload.step, Upload.processRun, Upload.parts, Upload.part, arrives, requeue_last, Upload.close,
        -Int.not_le]
  · cases hi : g.input <;> cases logs <;> cases trace <;> cases store <;>
      simp_all [Upload.step, Upload.processRun, Upload.parts, Upload.part, arrives, Upload.close, Upload.write]

theorem parts_beginning (store : Bool) (name : String) (ended : Bool) (r : Upload.Result)
    (pre : List (Sent Upload.Result)) (hpre : ∀ d, Sent.details d ∈ pre → d = some r) (tail : List Upload.Part)
    (run : Upload.Run) :
    ∃ run1, Upload.parts store name ended run (pre.map arrives ++ tail) = Upload.parts store name ended run1 tail ∧
      run1.tries = run.tries ∧ run1.attempt = run.attempt ∧
      (run1.result = run.result ∨ run1.result = { r with judgedBy := name }) := by
  induction pre generalizing run with
  | nil => exact ⟨run, rfl, rfl, rfl, .inl rfl⟩
  | cons p pre ih =>
    have ih := ih (fun d hd => hpre d (List.mem_cons_of_mem _ hd))
    cases p with
    | files zip =>
      cases store with
      | true =>
        obtain ⟨run1, h1, h2, h3, h4⟩ := ih { run with dir := Upload.write run.dir "files.zip" zip }
        exact ⟨run1, by rw [← h1]; rfl, h2, h3, h4⟩
      | false =>
        obtain ⟨run1, h1, h2, h3, h4⟩ := ih run
        exact ⟨run1, by rw [← h1]; rfl, h2, h3, h4⟩
    | details d =>
      have hd := hpre d (List.mem_cons_self ..)
      subst hd
      obtain ⟨run1, h1, h2, h3, h4⟩ := ih { run with result := { r with judgedBy := name } }
      refine ⟨run1, by rw [← h1]; rfl, h2, h3, .inr ?_⟩
      rcases h4 with h4 | h4 <;> exact h4
    | logs t =>
      obtain ⟨run1, h1, h2, h3, h4⟩ := ih { run with logs := run.logs ++ [(name, t)] }
      exact ⟨run1, by rw [← h1]; rfl, h2, h3, h4⟩
    | tracing es =>
      obtain ⟨run1, h1, h2, h3, h4⟩ := ih { run with events := run.events ++ es }
      exact ⟨run1, by rw [← h1]; rfl, h2, h3, h4⟩

theorem parts_cut (store : Bool) (name : String) (ended : Bool) {p : Sent Upload.Result} {q : Upload.Part}
    (h : Cut p q) (run : Upload.Run) : ∃ run1, Upload.parts store name ended run [q] = (run1, .status 400 true) ∧
      run1.tries = run.tries ∧ run1.attempt = run.attempt ∧ run1.result = run.result := by
  cases h with
  | files => cases store <;> exact ⟨_, rfl, rfl, rfl, rfl⟩
  | details => exact ⟨_, rfl, rfl, rfl, rfl⟩
  | logs => exact ⟨_, rfl, rfl, rfl, rfl⟩
  | tracing => exact ⟨_, rfl, rfl, rfl, rfl⟩

theorem requeue_retry (e : Upload.Render) (full : Bool) (r : Upload.Run) :
    (Upload.requeue e full false r).result = r.result ∧
    (Upload.requeue e full false r).tries = r.tries - 1 ∧
    ((Upload.requeue e full false r).phase = .closed ↔ r.tries ≤ 1 ∨ full = true) ∧
    ((Upload.requeue e full false r).phase ≠ .closed → (Upload.requeue e full false r).phase = .queued ∧
      (Upload.requeue e full false r).attempt = r.attempt + 1) := by
  by_cases h : r.tries ≤ 1
  · have h' : r.tries - 1 ≤ 0 := by omega
    simp [Upload.requeue, if_pos h', Upload.close, h]
  · have h' : ¬ r.tries - 1 ≤ 0 := by omega
    cases full <;> simp only [Upload.requeue, if_neg h', Upload.close] <;> simp [h]

open Upload (Result Render) in
/-- **C112** (a body that is cut). When only a beginning of the body arrives, ending between two parts or within one,
the upload is answered with 400 and one try is used up: the run is queued again as a new attempt, or closed if that was
the last one or the queue is full. Its result is the one it had, or the one that was sent. -/
theorem C112_cut {noop : Bool} {fixup : Result → Result} {judgeError : Result} {encodes : Result → Bool}
    {g : Grading Result} {logs : Option String} {trace : Option (List String)} {r : Result}
    (hr : Reports noop fixup judgeError g r) (he : encodes r = true) (e : Render) (store full : Bool)
    (run : Upload.Run) (hrun : run.phase = .inflight) {name : String} {u : Upload.Upload} (hu : Arrives name u)
    {pre post : List (Sent Result)} (hb : (body noop fixup judgeError encodes g logs trace).1 = pre ++ post)
    (hp : (u.parts = pre.map arrives ∧ u.ended = false) ∨
      ∃ p q, post.head? = some p ∧ Cut p q ∧ u.parts = pre.map arrives ++ [q]) :
    let (run', status) := Upload.step e store run (.upload run.attempt u full)
    status = some 400 ∧
    (run'.result = run.result ∨ run'.result = { r with judgedBy := name }) ∧
    run'.tries = run.tries - 1 ∧
    (run'.phase = .closed ↔ run.tries ≤ 1 ∨ full = true) ∧
    (run'.phase ≠ .closed → run'.phase = .queued ∧ run'.attempt = run.attempt + 1) := by
  have hd : ∀ d, Sent.details d ∈ pre → d = some r := by
    intro d hd
    have : Sent.details d ∈ (body noop fixup judgeError encodes g logs trace).1 := by
      rw [hb]; exact List.mem_append_left _ hd
    rw [C112_parts (logs := logs) (trace := trace) hr he] at this
    cases hi : g.input <;> cases logs <;> cases trace <;> simpa [hi] using this
  obtain ⟨hu1, hu2, hu3⟩ := hu
  have key : ∃ run1, Upload.processRun store run u = (run1, .status 400 true) ∧
      run1.tries = run.tries ∧ run1.attempt = run.attempt ∧
      (run1.result = run.result ∨ run1.result = { r with judgedBy := name }) := by
    simp only [Upload.processRun, hu2, hu3, if_true, hu1]
    rcases hp with ⟨hp, hend⟩ | ⟨p, q, _, hc, hp⟩
    · obtain ⟨run1, h1, h2, h3, h4⟩ := parts_beginning store name u.ended r pre hd []
        { run with dir := fun n => if n ∈ u.stuck then run.dir n else none }
      rw [List.append_nil] at h1
      rw [hp, h1]
      exact ⟨run1, by simp [Upload.parts, hend], h2, h3, h4⟩
    · obtain ⟨run1, h1, h2, h3, h4⟩ := parts_beginning store name u.ended r pre hd [q]
        { run with dir := fun n => if n ∈ u.stuck then run.dir n else none }
      obtain ⟨run2, k1, k2, k3, k4⟩ := parts_cut store name u.ended hc run1
      rw [hp, h1, k1]
      exact ⟨run2, rfl, k2.trans h2, k3.trans h3, by rw [k4]; exact h4⟩
  obtain ⟨run1, h1, h2, h3, h4⟩ := key
  have hst : Upload.step e store run (.upload run.attempt u full) =
      (Upload.requeue e full false run1, some 400) := by
    simp [Upload.step, hrun, h1]
  rw [hst]
  obtain ⟨q1, q2, q3, q4⟩ := requeue_retry e full run1
  exact ⟨rfl, by rw [q1]; exact h4, by rw [q2, h2], by rw [q3, h2], by rw [← h3]; exact q4⟩

open Upload (Result) in
/-- The hypotheses of `C112_cut` with a body of four parts cut within `details.json`, and of `C112_recorded`. -/
example :
    let g : Grading Result := ⟨true, "zip", some ⟨"AC", 1, "", ""⟩⟩
    Reports false id ⟨"JE", 0, "", ""⟩ g ⟨"AC", 1, "", ""⟩ ∧
    (body false id ⟨"JE", 0, "", ""⟩ (fun _ => true) g (some "log") (some ["ev"])).1 =
      [.files "zip"] ++ [.details (some ⟨"AC", 1, "", ""⟩), .logs "log", .tracing ["ev"]] ∧
    Cut (.details (some ⟨"AC", 1, "", ""⟩)) (.details none) ∧
    (Upload.step ⟨fun _ => "", fun _ => "", fun _ => ""⟩ true
      { Upload.fresh 3 (fun _ => none) with phase := .inflight }
      (.upload 0 ⟨"r", [], true, true, [.file "files.zip" "zip" true true, .details none], true⟩ false)).2 = some 400 :=
  ⟨⟨_, rfl, .inl ⟨rfl, rfl⟩⟩, rfl, .details, rfl⟩

open Upload (Result) in
/-- With `-noop`, a failed grading is sent as whatever the fix-up makes of a judge error. -/
example : (body true (fun r => { r with verdict := "AC" }) (⟨"JE", 0, "", ""⟩ : Result) (fun _ => true)
    ⟨true, "z", none⟩ none none).1 = [.files "z", .details (some ⟨"AC", 0, "", ""⟩)] := rfl

end Quark.Delivery
