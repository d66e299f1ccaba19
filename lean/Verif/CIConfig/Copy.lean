import Verif.CIConfig.Model
import Mathlib.Data.List.Basic

/-!
# C105: the program the inputs of a problem are judged with copies them

`CopyStdinToStdoutSource` (/repo/cmd/omegaup-grader/ci.go:31-57), as a program: the system decides how much each `read`
and each `write` transfers.
-/

namespace Quark.CIConfig

variable {β : Type}

/-- How the program ends: still running when the given system calls are used up, exit status 1, or 0. -/
inductive Exit where
  | running
  | failed
  | ok
  deriving DecidableEq

/-- The inner loop (cmd/omegaup-grader/ci.go:45-52): `left` bytes of the buffer are still to be written. The pointer stays at the start of
the buffer. The result is what was written, and the results of the `write`s not made yet, or how the program ended. -/
def flush (buffer : List β) : (left : Nat) → (writes : List Int) → List β × (Exit ⊕ List Int)
  | 0, writes => ([], .inr writes)
  | _ + 1, [] => ([], .inl .running)
  | n + 1, w :: writes =>
    if w ≤ 0 then ([], .inl .failed)
    else
      let r := flush buffer (n + 1 - w.toNat) writes
      (buffer.take w.toNat ++ r.1, r.2)

/-- The outer loop (cmd/omegaup-grader/ci.go:36-54). A `read` that fails is `none`; an empty one is the end of the input. -/
def copy : (reads : List (Option (List β))) → (writes : List Int) → List β × Exit
  | [], _ => ([], .running)
  | none :: _, _ => ([], .failed)
  | some [] :: _, _ => ([], .ok)
  | some (b :: bs) :: reads, writes =>
    match flush (b :: bs) (b :: bs).length writes with
    | (out, .inl e) => (out, e)
    | (out, .inr writes) =>
      let r := copy reads writes
      (out ++ r.1, r.2)

/-! ## Specification -/

/-- `write` was asked to write `left` bytes at a time and never wrote more. -/
inductive Writes : (left : Nat) → (sizes : List Nat) → Prop where
  | done : Writes 0 []
  | step {left w : Nat} {ws : List Nat} : 0 < w → w ≤ left → Writes (left - w) ws → Writes left (w :: ws)

/-- The system calls of a run to the end: non-empty pieces of the input, each with the sizes of the `write`s for it, and
then the end of the input. -/
def Calls (chunks : List (List β × List Nat)) : List (Option (List β)) × List Int :=
  (chunks.map (fun c => some c.1) ++ [some []], (chunks.flatMap Prod.snd).map Int.ofNat)

def Legal (chunks : List (List β × List Nat)) : Prop := ∀ c ∈ chunks, c.1 ≠ [] ∧ Writes c.1.length c.2

/-- The input of the program. -/
def input (chunks : List (List β × List Nat)) : List β := chunks.flatMap Prod.fst

/-- What the program writes, a piece of the input at a time: the start of the piece, over and over. -/
def rewrites (chunk : List β) (sizes : List Nat) : List β := sizes.flatMap fun w => chunk.take w

/-! ## Proofs -/

theorem writes_sum {n : Nat} {ws : List Nat} (h : Writes n ws) : ws.sum = n := by
  induction h with
  | done => rfl
  | step _ h2 _ ih => rw [List.sum_cons, ih]; omega

theorem flush_eq (buffer : List β) {n : Nat} {ws : List Nat} (h : Writes n ws) (rest : List Int) :
    flush buffer n (ws.map Int.ofNat ++ rest) = (rewrites buffer ws, .inr rest) := by
  induction h with
  | done => simp [flush, rewrites]
  | @step left w ws h1 h2 h3 ih =>
    obtain ⟨k, rfl⟩ : ∃ k, left = k + 1 := ⟨left - 1, by omega⟩
    simp only [List.map_cons, List.cons_append, flush]
    rw [if_neg (show ¬ Int.ofNat w ≤ 0 by rw [Int.ofNat_eq_natCast]; omega)]
    have : (Int.ofNat w).toNat = w := rfl
    rw [this, ih]
    simp [rewrites]

/-- C105: what the program writes, given how much every system call transferred. -/
theorem C105_output (chunks : List (List β × List Nat)) (h : Legal chunks) :
    copy (Calls chunks).1 (Calls chunks).2 = (chunks.flatMap fun c => rewrites c.1 c.2, .ok) := by
  unfold Calls
  simp only
  induction chunks with
  | nil => rfl
  | cons c chunks ih =>
    obtain ⟨chunk, sizes⟩ := c
    obtain ⟨hne, hw⟩ := h (chunk, sizes) (by simp)
    simp only at hne hw
    cases chunk with
    | nil => exact absurd rfl hne
    | cons b bs =>
      simp only [List.map_cons, List.cons_append, List.flatMap_cons, List.map_append, copy]
      rw [flush_eq _ hw]
      simp only
      rw [ih fun c hc => h c (List.mem_cons_of_mem _ hc)]

theorem rewrites_length {chunk : List β} {sizes : List Nat} {n : Nat} (hw : Writes n sizes) (hn : n ≤ chunk.length) :
    (rewrites chunk sizes).length = n := by
  induction hw with
  | done => rfl
  | @step left w ws h1 h2 h3 ih =>
    have : rewrites chunk (w :: ws) = chunk.take w ++ rewrites chunk ws := by simp [rewrites]
    rw [this, List.length_append, List.length_take, ih (by omega)]
    omega

theorem flatMap_eq_iff {chunks : List (List β × List Nat)} {f : List β × List Nat → List β}
    (hlen : ∀ c ∈ chunks, (f c).length = c.1.length) :
    chunks.flatMap f = chunks.flatMap Prod.fst ↔ ∀ c ∈ chunks, f c = c.1 := by
  induction chunks with
  | nil => simp
  | cons c chunks ih =>
    rw [List.flatMap_cons, List.flatMap_cons]
    constructor
    · intro he
      obtain ⟨h1, h2⟩ := List.append_inj he (hlen c (by simp))
      intro d hd
      rcases List.mem_cons.mp hd with rfl | hd
      · exact h1
      · exact (ih fun c hc => hlen c (List.mem_cons_of_mem _ hc)).mp h2 d hd
    · intro hall
      rw [hall c (by simp), (ih fun c hc => hlen c (List.mem_cons_of_mem _ hc)).mpr fun d hd =>
        hall d (List.mem_cons_of_mem _ hd)]

/-- C105, exactly: the program exits normally, and what it wrote has the size of its input; it is its input if and only
if every piece of it is what one gets by writing, for each `write`, the start of the piece. -/
theorem C105_copies_iff (chunks : List (List β × List Nat)) (h : Legal chunks) :
    ∃ out, copy (Calls chunks).1 (Calls chunks).2 = (out, .ok) ∧ out.length = (input chunks).length ∧
      (out = input chunks ↔ ∀ c ∈ chunks, rewrites c.1 c.2 = c.1) := by
  have hlen : ∀ c ∈ chunks, (rewrites c.1 c.2).length = c.1.length :=
    fun c hc => rewrites_length (h c hc).2 (le_refl _)
  refine ⟨_, C105_output chunks h, ?_, flatMap_eq_iff hlen⟩
  unfold input
  rw [List.length_flatMap, List.length_flatMap]
  exact congrArg List.sum (List.map_congr_left hlen)

/-- C105, what holds: if no `write` was short, the output is the input. -/
theorem C105_full_writes_partial (chunks : List (List β × List Nat)) (h : ∀ c ∈ chunks, c.1 ≠ [] ∧ c.2 = [c.1.length]) :
    copy (Calls chunks).1 (Calls chunks).2 = (input chunks, .ok) := by
  have hl : Legal chunks := by
    intro c hc
    obtain ⟨h1, h2⟩ := h c hc
    refine ⟨h1, ?_⟩
    rw [h2]
    exact .step (List.length_pos_iff.mpr h1) (le_refl _) (by rw [Nat.sub_self]; exact .done)
  obtain ⟨out, ho, -, hi⟩ := C105_copies_iff chunks hl
  rw [ho, hi.mpr]
  intro c hc
  rw [(h c hc).2]
  simp [rewrites]

/-- A short `write` that loses part of the input: `ab` becomes `aa`. -/
theorem C105_false : Legal [(['a', 'b'], [1, 1])] ∧
    copy (Calls [(['a', 'b'], [1, 1])]).1 (Calls [(['a', 'b'], [1, 1])]).2 = (['a', 'a'], .ok) ∧
    input [(['a', 'b'], [1, 1])] = ['a', 'b'] := by
  refine ⟨?_, rfl, rfl⟩
  intro c hc
  rcases List.mem_singleton.mp hc with rfl
  exact ⟨by decide, .step (by decide) (by decide) (.step (by decide) (by decide) .done)⟩

/-- Two full writes. -/
example : copy (Calls [(['a', 'b'], [2]), (['c'], [1])]).1 (Calls [(['a', 'b'], [2]), (['c'], [1])]).2 =
    (['a', 'b', 'c'], .ok) := C105_full_writes_partial _ (by simp)

end Quark.CIConfig
