import Verif.HashReader.Model

/-!
# C176: what a hash reader reports is about the whole stream
-/
namespace Quark.HashReader

variable {β η : Type}

/-! ## Specification -/

/-- All the bytes of a stream. -/
def bytes (answers : Answers β) : List β := (answers.map Prod.fst).flatten

/-- Only the last answer can come with an error. -/
def Stream (answers : Answers β) : Prop := ∀ x ∈ answers.dropLast, x.2 = false

/-! ## Proofs -/

theorem Stream.tail {x : List β × Bool} {q : Answers β} (h : Stream (x :: q)) : Stream q := by
  cases q with
  | nil => intro y hy; simp at hy
  | cons y q => intro z hz; exact h z (by simp only [List.dropLast_cons_cons]; exact List.mem_cons_of_mem _ hz)

theorem drain_spec (hashed : List β) (l : Nat) (q : Answers β) (h : Stream q) :
    drain hashed l q = { hashed := hashed ++ bytes q, length := l + 2 * (bytes q).length, rest := [] } := by
  induction q generalizing hashed l with
  | nil => simp [drain, bytes]
  | cons x q ih =>
    obtain ⟨b, e⟩ := x
    rw [drain]
    split
    · rename_i he
      have : q = [] := by
        cases q with
        | nil => rfl
        | cons y q =>
          have := h (b, e) (by simp)
          rw [he] at this; cases this
      subst this
      simp [bytes]; omega
    · rw [ih _ _ h.tail]
      simp only [bytes, List.map_cons, List.flatten_cons, List.append_assoc, List.length_append]
      congr 1
      omega

theorem reads_spec (n : Nat) (r : Reader β) :
    (r.reads n).1.flatten = bytes (r.rest.take n) ∧
    (r.reads n).2 = { hashed := r.hashed ++ bytes (r.rest.take n), length := r.length + (bytes (r.rest.take n)).length,
                      rest := r.rest.drop n } := by
  induction n generalizing r with
  | zero => simp [Reader.reads, bytes]
  | succ n ih =>
    obtain ⟨hashed, l, rest⟩ := r
    cases rest with
    | nil =>
      have := ih ⟨hashed, l, []⟩
      simp only [Reader.reads, Reader.read, List.flatten_cons, List.nil_append, List.take_nil, List.drop_nil] at this ⊢
      exact this
    | cons x q =>
      obtain ⟨b, e⟩ := x
      have := ih ⟨hashed ++ b, l + b.length, q⟩
      simp only [Reader.reads, Reader.read, List.flatten_cons, List.take_succ_cons, List.drop_succ_cons, bytes, List.map_cons,
        List.length_append, ← Nat.add_assoc, ← List.append_assoc] at this ⊢
      exact ⟨by rw [this.1], this.2⟩

theorem Stream.drop {q : Answers β} (h : Stream q) (n : Nat) : Stream (q.drop n) := by
  induction n generalizing q with
  | zero => exact h
  | succ n ih =>
    cases q with
    | nil => exact h
    | cons x q => exact ih h.tail

theorem bytes_split (q : Answers β) (n : Nat) : bytes (q.take n) ++ bytes (q.drop n) = bytes q := by
  unfold bytes
  rw [← List.flatten_append, ← List.map_append, List.take_append_drop]

/-- **C176** However the stream is split into answers, and wherever one stops reading, the sum is that of all its bytes; reading passes on exactly
the bytes read, and asking for the sum again gives the same. -/
theorem C176_sum (H : List β → η) (answers : Answers β) (h : Stream answers) (n : Nat) :
    let x := (new answers).reads n
    x.1.flatten = bytes (answers.take n) ∧ (x.2.sum H).1 = H (bytes answers) ∧ ((x.2.sum H).2.sum H).1 = H (bytes answers) := by
  obtain ⟨h1, h2⟩ := reads_spec n (new answers)
  refine ⟨h1, ?_, ?_⟩
  all_goals
    rw [h2]
    simp only [Reader.sum, new, List.nil_append]
    rw [drain_spec _ _ _ (h.drop n)]
    simp only [bytes_split]
  rw [drain]

/-- **C176** exactly: the length while reading is the number of bytes read; once the sum was asked for, what had not been read counts twice. -/
theorem C176_length_partial (H : List β → η) (answers : Answers β) (h : Stream answers) (n : Nat) :
    let x := ((new answers).reads n).2
    x.length = (bytes (answers.take n)).length ∧
    (x.sum H).2.length = (bytes answers).length + (bytes (answers.drop n)).length ∧
    ((x.sum H).2.length = (bytes answers).length ↔ bytes (answers.drop n) = []) := by
  obtain ⟨-, h2⟩ := reads_spec n (new answers)
  have hl := congrArg List.length (bytes_split answers n)
  rw [List.length_append] at hl
  have key : (((new answers).reads n).2.sum H).2.length = (bytes answers).length + (bytes (answers.drop n)).length := by
    rw [h2]
    simp only [Reader.sum, new, Nat.zero_add]
    rw [drain_spec _ _ _ (h.drop n)]
    simp only
    omega
  refine ⟨by rw [h2]; simp [new], key, ?_⟩
  rw [key, ← List.length_eq_zero_iff]
  omega

/-- What `Length` is documented to give: "the number of bytes involved in the hash computation so far". -/
def Documented (H : List β → η) : Prop :=
  ∀ (answers : Answers β) (n : Nat), Stream answers → (((new answers).reads n).2.sum H).2.length = (bytes answers).length

/-- **C176** is false of lengths: a stream of three bytes of which nothing was read before the sum has length six. -/
theorem C176_length_false (b : β) (H : List β → η) : ¬ Documented H := by
  intro h
  have h1 := h [([b, b, b], false), ([], true)] 0 (by intro x hx; simp at hx; rw [hx])
  have h2 := (C176_length_partial H [([b, b, b], false), ([], true)] (by intro x hx; simp at hx; rw [hx]) 0).2.1
  simp only [h1, bytes, List.drop_zero] at h2
  simp at h2

/-- **C176** An input that arrives is accepted exactly if the hash of everything that arrived, also of what comes after the end of the archive,
is the one announced. -/
theorem C176_accepts_iff [DecidableEq η] (H : List β → η) (streamHash : η) (answers : Answers β) (h : Stream answers) (n : Nat) :
    accepts H streamHash answers n = true ↔ streamHash = H (bytes answers) := by
  rw [accepts, decide_eq_true_iff, (C176_sum H answers h n).2.1]

/-- **C176** The archives of the benchmark are compared with themselves only: whatever they contain they are accepted; and the size that is
passed on is twice theirs. -/
theorem C176_embedded [DecidableEq η] (H : List β → η) (first second : Answers β) (h1 : Stream first) (h2 : Stream second)
    (hsame : bytes first = bytes second) (n : Nat) : persistEmbedded H first second n = (true, 2 * (bytes first).length) := by
  have e1 := (C176_sum H first h1 0).2.1
  have e2 := (C176_length_partial H first h1 0).2.1
  simp only [Reader.reads, List.drop_zero] at e1 e2
  unfold persistEmbedded
  simp only [Prod.mk.injEq]
  refine ⟨?_, by rw [e2]; omega⟩
  rw [C176_accepts_iff H _ second h2 n, e1, hsame]

/-- A stream in three answers, the last one with the end of the file; one is read before the sum. -/
example : (((new [([1, 2], false), ([3], false), ([4], true)]).reads 1).2.sum (fun l : List Nat => l)).1 = [1, 2, 3, 4] ∧
    (((new [([1, 2], false), ([3], false), ([4], true)]).reads 1).2.sum (fun l : List Nat => l)).2.length = 6 := by decide

example : Stream [([1, 2], false), ([3], false), ([4], true)] := by unfold Stream; decide

example : accepts (fun l : List Nat => l) [1, 2, 3] [([1, 2], false), ([3], true)] 1 = true ∧
    accepts (fun l : List Nat => l) [1, 2] [([1, 2], false), ([3], true)] 1 = false := by decide

end Quark.HashReader
