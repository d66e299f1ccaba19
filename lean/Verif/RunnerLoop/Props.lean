import Verif.RunnerLoop.Model
import Mathlib.Tactic.Linarith
import Mathlib.Tactic.NormNum
import Mathlib.Tactic.IntervalCases
import Mathlib.Data.List.Induction

namespace Quark.RunnerLoop

/-! ## C58 -/

def Outcome.isError : Outcome → Bool
  | .error _ => true
  | _ => false

/-- How many iterations in a row have failed by now. -/
def failures (history : List Outcome) : Nat := (history.reverse.takeWhile Outcome.isError).length

/-- C58: after `k` failures in a row the ceiling is 2^k seconds, and 64 from the sixth on; in particular it is 1 right
after a success or a timeout, and always between 1 and 64. -/
theorem C58_ceiling (history : List Outcome) : sleepTime history = 2 ^ min 6 (failures history) := by
  induction history using List.reverseRecOn with
  | nil => rfl
  | append_singleton h o ih =>
    have step : sleepTime (h ++ [o]) = (iterate (sleepTime h) o).2 := by simp [sleepTime]
    rw [step, ih]
    cases o with
    | success => simp [iterate, failures, Outcome.isError]
    | timeout => simp [iterate, failures, Outcome.isError]
    | error r =>
      have hf : failures (h ++ [.error r]) = failures h + 1 := by
        simp [failures, List.takeWhile_cons, show (Outcome.error r).isError = true from rfl]
      rw [hf]
      simp only [iterate]
      rcases Nat.lt_or_ge (failures h) 6 with hl | hl
      · rw [Nat.min_eq_right (by omega), Nat.min_eq_right (by omega)]
        interval_cases failures h <;> norm_num
      · rw [Nat.min_eq_left (by omega), Nat.min_eq_left (by omega)]
        norm_num

/-- C58 spelt out. -/
theorem C58_bounds (history : List Outcome) :
    1 ≤ sleepTime history ∧ sleepTime history ≤ 64 ∧
    (∀ r, sleepTime (history ++ [.error r]) = min 64 (2 * sleepTime history)) ∧
    sleepTime (history ++ [.success]) = 1 ∧ sleepTime (history ++ [.timeout]) = 1 := by
  have h := C58_ceiling history
  have step : ∀ o, sleepTime (history ++ [o]) = (iterate (sleepTime history) o).2 := by intro o; simp [sleepTime]
  have hk : min 6 (failures history) ≤ 6 := Nat.min_le_left _ _
  generalize min 6 (failures history) = k at h hk
  refine ⟨?_, ?_, ?_, ?_, ?_⟩
  · rw [h]; interval_cases k <;> norm_num
  · rw [h]; interval_cases k <;> norm_num
  · intro r
    rw [step]
    simp only [iterate]
    rw [h]
    interval_cases k <;> norm_num
  · rw [step]; rfl
  · rw [step]; rfl

/-- The actual sleep: a whole number of seconds below the ceiling, and none except after an error. Since the fraction is
dropped, the first error after a success never sleeps at all. -/
theorem C58_sleep (history : List Outcome) (o : Outcome) (hr : ∀ r, o = .error r → 0 ≤ r ∧ r < 1) :
    0 ≤ (iterate (sleepTime history) o).1 ∧ ((iterate (sleepTime history) o).1 : ℚ) < sleepTime history ∧
    (o.isError = false → (iterate (sleepTime history) o).1 = 0) ∧
    (failures history = 0 → (iterate (sleepTime history) o).1 = 0) := by
  obtain ⟨h1, -⟩ := C58_bounds history
  cases o with
  | success => exact ⟨le_refl _, by simp only [iterate]; push_cast; linarith, fun _ => rfl, fun _ => rfl⟩
  | timeout => exact ⟨le_refl _, by simp only [iterate]; push_cast; linarith, fun _ => rfl, fun _ => rfl⟩
  | error r =>
    obtain ⟨h2, h3⟩ := hr r rfl
    simp only [iterate]
    refine ⟨Int.floor_nonneg.2 (mul_nonneg h2 (by linarith)), ?_, (fun h => by cases h), ?_⟩
    · exact lt_of_le_of_lt (Int.floor_le _) (by nlinarith)
    · intro hf
      have : sleepTime history = 1 := by rw [C58_ceiling, hf]; norm_num
      rw [this, mul_one, Int.floor_eq_zero_iff]
      exact ⟨h2, h3⟩

example : sleepTime [.error 0, .error (1 / 2), .error (1 / 3)] = 8 ∧ sleepTime [.error 0, .success, .error 0] = 2 ∧
    (iterate 8 (.error (1 / 2))).1 = 4 ∧ (iterate 1 (.error (99 / 100))).1 = 0 := by
  decide +kernel

/-! ## C56 -/

/-- The bytes the consumer has not yet got. -/
def Buf.rest (b : Buf) : Bytes := b.cur.getD [] ++ b.toSend.flatten

/-- No destination takes bytes and reports an error at once. -/
def Op.clean : Op → Prop
  | .read _ => True
  | .writeTo answers => ∀ a ∈ answers, a.err = true → a.taken = 0

theorem fill_rest {b b' : Buf} {c : Bytes} (h : fill b = some (c, b')) : b'.rest = b.rest ∧ b'.cur = some c := by
  unfold fill at h
  split at h
  · rename_i x hx
    simp only [Option.some.injEq, Prod.mk.injEq] at h
    obtain ⟨rfl, rfl⟩ := h
    exact ⟨rfl, hx⟩
  · rename_i hx
    split at h
    · cases h
    · rename_i x xs hs
      simp only [Option.some.injEq, Prod.mk.injEq] at h
      obtain ⟨rfl, rfl⟩ := h
      exact ⟨by simp [Buf.rest, hx, hs], rfl⟩

theorem fill_none {b : Buf} (h : fill b = none) : b.rest = [] := by
  unfold fill at h
  split at h
  · cases h
  · rename_i hx
    split at h
    · rename_i hs; simp [Buf.rest, hx, hs]
    · cases h

theorem read_rest (n : Nat) (b : Buf) : (read n b).1.getD [] ++ (read n b).2.rest = b.rest := by
  unfold read
  cases hf : fill b with
  | none => rfl
  | some x =>
    obtain ⟨c, b'⟩ := x
    obtain ⟨h1, h2⟩ := fill_rest hf
    rw [← h1]
    simp only [Option.getD_some, Buf.rest, h2]
    split
    · rename_i h; simp [h]
    · simp only [Option.getD_some]
      rw [← List.append_assoc, List.take_append_drop]

theorem writeTo_rest (answers : List Answer) (b : Buf) (hc : ∀ a ∈ answers, a.err = true → a.taken = 0) :
    (writeTo answers b).1 ++ (writeTo answers b).2.2.2.rest = b.rest ∧
    (writeTo answers b).2.1 = (writeTo answers b).1.length ∧
    ((writeTo answers b).2.2.1 = .done → (writeTo answers b).2.2.2.rest = []) := by
  induction answers generalizing b with
  | nil =>
    unfold writeTo
    cases hf : fill b with
    | none => exact ⟨by simp, rfl, fun _ => fill_none hf⟩
    | some x =>
      obtain ⟨c, b'⟩ := x
      exact ⟨by simp [(fill_rest hf).1], rfl, by simp⟩
  | cons a answers ih =>
    unfold writeTo
    cases hf : fill b with
    | none => exact ⟨by simp, rfl, fun _ => fill_none hf⟩
    | some x =>
      obtain ⟨c, b'⟩ := x
      obtain ⟨h1, h2⟩ := fill_rest hf
      simp only
      split_ifs with he hw hp
      · have ht := hc a (by simp) he
        simp [ht, h1]
      · obtain ⟨i1, i2, i3⟩ := ih { b' with cur := none } (fun x hx => hc x (by simp [hx]))
        refine ⟨?_, ?_, i3⟩
        · simp only
          rw [List.append_assoc, i1, ← h1]
          simp [Buf.rest, h2, hw]
        · simp only [List.length_append, List.length_take]; rw [i2]; omega
      · obtain ⟨i1, i2, i3⟩ := ih { b' with cur := some (c.drop (min a.taken c.length)) }
          (fun x hx => hc x (by simp [hx]))
        refine ⟨?_, ?_, i3⟩
        · simp only
          rw [List.append_assoc, i1, ← h1]
          simp only [Buf.rest, h2, Option.getD_some]
          rw [← List.append_assoc, List.take_append_drop]
        · simp only [List.length_append, List.length_take]; rw [i2]; omega
      · obtain ⟨i1, i2, i3⟩ := ih b' (fun x hx => hc x (by simp [hx]))
        refine ⟨?_, ?_, i3⟩
        · simp only
          rw [List.append_assoc, i1, ← h1]
          have : min a.taken c.length = 0 := by omega
          simp [this]
        · simp only [List.length_append, List.length_take]; rw [i2]; omega

/-- C56: whatever the producer writes and however the consumer mixes `Read` and `WriteTo`, with buffers of any size and
destinations taking any part of what they are given, what the consumer has received so far followed by what is still to
come is exactly what was written, in order. -/
theorem C56_stream (chunks : List Bytes) (ops : List Op) (hc : ∀ op ∈ ops, op.clean) :
    (consume ops { toSend := chunks }).1 ++ (consume ops { toSend := chunks }).2.rest = chunks.flatten := by
  have main : ∀ b : Buf, (consume ops b).1 ++ (consume ops b).2.rest = b.rest := by
    induction ops with
    | nil => intro b; simp [consume]
    | cons op ops ih =>
      intro b
      have ih' := ih (fun x hx => hc x (by simp [hx]))
      cases op with
      | read n =>
        simp only [consume]
        rw [List.append_assoc, ih', read_rest]
      | writeTo answers =>
        simp only [consume]
        rw [List.append_assoc, ih', (writeTo_rest answers b (hc (.writeTo answers) (by simp))).1]
  rw [main]
  simp [Buf.rest]

/-- C56: at end of stream nothing is missing. -/
theorem C56_complete (chunks : List Bytes) (ops : List Op) (hc : ∀ op ∈ ops, op.clean) (last : Op) (hl : last.clean)
    (h : match last with
      | .read n => (read n (consume ops { toSend := chunks }).2).1 = none
      | .writeTo answers => (writeTo answers (consume ops { toSend := chunks }).2).2.2.1 = .done) :
    (consume (ops ++ [last]) { toSend := chunks }).1 = chunks.flatten := by
  have app : ∀ ops b, consume (ops ++ [last]) b =
      ((consume ops b).1 ++ (consume [last] (consume ops b).2).1, (consume [last] (consume ops b).2).2) := by
    intro ops
    induction ops with
    | nil => intro b; simp [consume]
    | cons op ops ih =>
      intro b
      cases op with
      | read n => simp only [List.cons_append, consume, ih, List.append_assoc]
      | writeTo answers => simp only [List.cons_append, consume, ih, List.append_assoc]
  have hall : ∀ op ∈ ops ++ [last], op.clean := by
    intro op ho
    rcases List.mem_append.1 ho with ho | ho
    · exact hc op ho
    · rw [List.mem_singleton.1 ho]; exact hl
  have hs := C56_stream chunks (ops ++ [last]) hall
  suffices hr : (consume (ops ++ [last]) { toSend := chunks }).2.rest = [] by
    rw [hr, List.append_nil] at hs; exact hs
  rw [app]
  generalize (consume ops { toSend := chunks }).2 = b at h
  cases last with
  | read n =>
    simp only [consume]
    simp only at h
    unfold read at h ⊢
    cases hf : fill b with
    | none => exact fill_none hf
    | some x => rw [hf] at h; cases h
  | writeTo answers =>
    simp only [consume]
    exact (writeTo_rest answers b hl).2.2 h

/-- End of stream is only reported when there is nothing left, and a `Read` with room makes progress unless it meets an
empty chunk. -/
theorem C56_read (n : Nat) (b : Buf) :
    ((read n b).1 = none ↔ b.cur = none ∧ b.toSend = []) ∧
    (∀ d, (read n b).1 = some d → d.length ≤ n ∧ (d = [] → n = 0 ∨ ∃ c, fill b = some ([], c))) := by
  unfold read
  cases hf : fill b with
  | none =>
    unfold fill at hf
    split at hf
    · cases hf
    · rename_i hx
      split at hf
      · rename_i hs; simp [hx, hs]
      · cases hf
  | some x =>
    obtain ⟨c, b'⟩ := x
    refine ⟨?_, ?_⟩
    · simp only [reduceCtorEq, false_iff]
      rintro ⟨h1, h2⟩
      simp [fill, h1, h2] at hf
    · intro d hd
      simp only [Option.some.injEq] at hd
      subst hd
      refine ⟨by simp, ?_⟩
      intro h
      have := congrArg List.length h
      simp only [List.length_take, List.length_nil] at this
      rcases Nat.eq_zero_or_pos n with h0 | h0
      · exact Or.inl h0
      · right
        have : c = [] := List.length_eq_zero_iff.1 (by omega)
        rw [this]
        exact ⟨b', rfl⟩

/-- The total `WriteTo` reports is the number of bytes the destination took, whatever the destination does. -/
theorem C56_total (answers : List Answer) (b : Buf) : (writeTo answers b).2.1 = (writeTo answers b).1.length := by
  induction answers generalizing b with
  | nil => unfold writeTo; cases hf : fill b <;> rfl
  | cons a answers ih =>
    unfold writeTo
    cases hf : fill b with
    | none => rfl
    | some x =>
      obtain ⟨c, b'⟩ := x
      simp only
      split_ifs <;> simp [ih]

example : let ops := [Op.read 2, .writeTo [⟨1, false⟩, ⟨0, false⟩, ⟨5, false⟩], .read 1, .read 9, .read 4, .read 7]
    (∀ op ∈ ops, op.clean) ∧ consume ops { toSend := [[1, 2, 3], [], [4, 5], [6]] } = ([1, 2, 3, 4, 5, 6], { toSend := [] }) ∧
    (read 7 (consume (ops.take 5) { toSend := [[1, 2, 3], [], [4, 5], [6]] }).2).1 = none := by
  refine ⟨?_, by decide +kernel, by decide +kernel⟩
  intro op h
  simp only [List.mem_cons, List.not_mem_nil, or_false] at h
  rcases h with rfl | rfl | rfl | rfl | rfl | rfl <;> simp [Op.clean]

/-- The condition on the destinations is needed: after a `Write` that took part of a chunk and failed, the part it took
is delivered again. -/
theorem C56_error_repeats :
    (consume [.writeTo [⟨1, true⟩], .read 9] { toSend := [[1, 2, 3]] }).1 = [1, 1, 2, 3] := by decide +kernel

end Quark.RunnerLoop
