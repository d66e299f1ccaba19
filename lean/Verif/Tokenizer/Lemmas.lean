import Verif.Tokenizer.Model

namespace Quark.Tokenizer

/-! ### Facts about `decodeRune` -/

theorem seqLen_le (b : UInt8) : seqLen b ≤ 4 ∧ 1 ≤ seqLen b := by
  unfold seqLen; split <;> (try split) <;> (try split) <;> omega

theorem decode_ascii (b : UInt8) (r : List UInt8) (h : b.toNat < 0x80) :
    decodeRune (b :: r) = (b.toNat, 1) := by
  simp [decodeRune, h]

theorem seqLen_ascii (b : UInt8) (h : b.toNat < 0x80) : seqLen b = 1 := by
  simp only [seqLen, inRange, Bool.and_eq_true, decide_eq_true_eq]
  split <;> (try split) <;> (try split) <;> omega

theorem decode_seq1 (b : UInt8) (r : List UInt8) (h : ¬ b.toNat < 0x80) (hs : seqLen b = 1) :
    decodeRune (b :: r) = (runeError, 1) := by
  simp [decodeRune, h, hs]

theorem decode_incomplete (b : UInt8) (r : List UInt8) (h : r.length + 1 < seqLen b) :
    decodeRune (b :: r) = (runeError, 1) := by
  have hn : ¬ b.toNat < 0x80 := by
    intro hb; have := seqLen_ascii b hb; omega
  simp only [decodeRune, hn, if_false]
  split <;> simp_all <;> omega

theorem decode_stable (b : UInt8) (r x : List UInt8) (h : seqLen b ≤ r.length + 1) :
    decodeRune (b :: (r ++ x)) = decodeRune (b :: r) := by
  by_cases hb : b.toNat < 0x80
  · simp [decode_ascii, hb]
  have hc : seqLen b = 1 ∨ seqLen b = 2 ∨ seqLen b = 3 ∨ seqLen b = 4 := by
    have := seqLen_le b; omega
  rcases hc with hc | hc | hc | hc
  · simp [decode_seq1, hb, hc]
  · match r, h with
    | b1 :: r, _ => simp [decodeRune, hb, hc]
    | [], h => simp [hc] at h
  · match r, h with
    | b1 :: b2 :: r, _ => simp [decodeRune, hb, hc]
    | [], h => simp [hc] at h
    | [_], h => simp [hc] at h
  · match r, h with
    | b1 :: b2 :: b3 :: r, _ => simp [decodeRune, hb, hc]
    | [], h => simp [hc] at h
    | [_], h => simp [hc] at h
    | [_, _], h => simp [hc] at h

/-- A decoded rune either has width one, or consists of all the bytes the first byte asks
for, all of which are non-ASCII, and stands for a non-ASCII rune. -/
theorem decode_cases (b : UInt8) (r : List UInt8) :
    decodeRune (b :: r) = (b.toNat, 1) ∧ b.toNat < 0x80 ∨
    decodeRune (b :: r) = (runeError, 1) ∧ 0x80 ≤ b.toNat ∨
    (∃ v, decodeRune (b :: r) = (v, seqLen b) ∧ 0x80 ≤ v ∧ 0x80 ≤ b.toNat ∧
      seqLen b ≤ r.length + 1 ∧ 2 ≤ seqLen b ∧
      ∀ c ∈ r.take (seqLen b - 1), 0x80 ≤ c.toNat ∧ c.toNat ≤ 0xBF) := by
  by_cases hb : b.toNat < 0x80
  · exact Or.inl ⟨decode_ascii b r hb, hb⟩
  right
  have hr : ∀ (lo hi : Nat) (c : UInt8), inRange lo hi c = true ↔ lo ≤ c.toNat ∧ c.toNat ≤ hi := by
    intro lo hi c; simp [inRange]
  have hlo : 0x80 ≤ acceptLo b := by unfold acceptLo; split <;> (try split) <;> omega
  have hhi : acceptHi b ≤ 0xBF := by unfold acceptHi; split <;> (try split) <;> omega
  have hc : seqLen b = 1 ∨ seqLen b = 2 ∨ seqLen b = 3 ∨ seqLen b = 4 := by
    have := seqLen_le b; omega
  rcases hc with hc | hc | hc | hc
  · left; exact ⟨decode_seq1 b r hb hc, by omega⟩
  · have hrange : 0xC2 ≤ b.toNat ∧ b.toNat ≤ 0xDF := by
      unfold seqLen at hc
      simp only [hr] at hc
      split at hc <;> (try split at hc) <;> (try split at hc) <;> omega
    match r with
    | [] => left; exact ⟨decode_incomplete b [] (by simp [hc]), by omega⟩
    | b1 :: r =>
      simp only [decodeRune, hb, if_false, hc]
      split
      · rename_i h1
        rw [hr] at h1
        right
        refine ⟨_, rfl, ?_, by omega, by simp, by omega, ?_⟩
        · show 0x80 ≤ b.toNat % 32 * 64 + b1.toNat % 64
          omega
        · simp <;> omega
      · left; exact ⟨rfl, by omega⟩
  · have hrange : 0xE0 ≤ b.toNat ∧ b.toNat ≤ 0xEF := by
      unfold seqLen at hc
      simp only [hr] at hc
      split at hc <;> (try split at hc) <;> (try split at hc) <;> omega
    match r with
    | [] => left; exact ⟨decode_incomplete b [] (by simp [hc]), by omega⟩
    | [_] => left; exact ⟨decode_incomplete b [_] (by simp [hc]), by omega⟩
    | b1 :: b2 :: r =>
      simp only [decodeRune, hb, if_false, hc]
      split
      · rename_i h1
        rw [Bool.and_eq_true, hr, hr] at h1
        right
        refine ⟨_, rfl, ?_, by omega, by simp, by omega, ?_⟩
        · have : b.toNat = 0xE0 → acceptLo b = 0xA0 := by intro h; simp [acceptLo, h]
          show 0x80 ≤ b.toNat % 16 * 4096 + b1.toNat % 64 * 64 + b2.toNat % 64
          omega
        · simp <;> omega
      · left; exact ⟨rfl, by omega⟩
  · have hrange : 0xF0 ≤ b.toNat ∧ b.toNat ≤ 0xF4 := by
      unfold seqLen at hc
      simp only [hr] at hc
      split at hc <;> (try split at hc) <;> (try split at hc) <;> omega
    match r with
    | [] => left; exact ⟨decode_incomplete b [] (by simp [hc]), by omega⟩
    | [_] => left; exact ⟨decode_incomplete b [_] (by simp [hc]), by omega⟩
    | [_, _] => left; exact ⟨decode_incomplete b [_, _] (by simp [hc]), by omega⟩
    | b1 :: b2 :: b3 :: r =>
      simp only [decodeRune, hb, if_false, hc]
      split
      · rename_i h1
        rw [Bool.and_eq_true, Bool.and_eq_true, hr, hr, hr] at h1
        right
        refine ⟨_, rfl, ?_, by omega, by simp, by omega, ?_⟩
        · have : b.toNat = 0xF0 → acceptLo b = 0x90 := by
            intro h; simp [acceptLo, h]
          show 0x80 ≤ b.toNat % 8 * 262144 + b1.toNat % 64 * 4096 + b2.toNat % 64 * 64 + b3.toNat % 64
          omega
        · simp <;> omega
      · left; exact ⟨rfl, by omega⟩

theorem decode_width_le (b : UInt8) (r : List UInt8) :
    (decodeRune (b :: r)).2 ≤ r.length + 1 := by
  rcases decode_cases b r with h | h | ⟨v, h⟩ <;> simp [h]

theorem decode_cont (b : UInt8) (r : List UInt8) (h : 0x80 ≤ b.toNat ∧ b.toNat ≤ 0xBF) :
    decodeRune (b :: r) = (runeError, 1) := by
  apply decode_seq1 _ _ (by omega)
  simp only [seqLen, inRange, Bool.and_eq_true, decide_eq_true_eq]
  split <;> (try split) <;> (try split) <;> omega

/-- If a sequence is cut by the end of the window, either it is invalid anyway, or the rest
of the window consists of continuation bytes. -/
theorem decode_cut (b : UInt8) (r x : List UInt8) (h : r.length + 1 < seqLen b) :
    decodeRune (b :: (r ++ x)) = (runeError, 1) ∨
    ∀ c ∈ r, 0x80 ≤ c.toNat ∧ c.toNat ≤ 0xBF := by
  rcases decode_cases b (r ++ x) with h' | h' | ⟨v, h1, h2, h3, h4, h5, h6⟩
  · have := seqLen_ascii b h'.2; omega
  · exact Or.inl h'.1
  · right
    intro c hc
    apply h6
    rw [List.take_append]
    apply List.mem_append_left
    rwa [List.take_of_length_le (by omega)]

/-! ### Position-free versions of the two loops -/

theorem skipLoop_fst (p : Nat → Bool) (data : List UInt8) :
    ∀ ps ps', (skipLoop p ps data).1 = (skipLoop p ps' data).1 := by
  generalize hn : data.length = n
  induction n using Nat.strongRecOn generalizing data with
  | _ n ih =>
    intro ps ps'
    match data with
    | [] => simp [skipLoop]
    | b :: rest =>
      rw [skipLoop, skipLoop]
      simp only
      split
      · rfl
      · simp only
        rw [ih _ ?_ _ rfl]
        have := decodeRune_pos b rest
        simp only [List.length_cons, List.length_drop] at *
        omega

theorem scanLoop_fst (p : Nat → Bool) (data : List UInt8) :
    ∀ ps ps', (scanLoop p ps data).1 = (scanLoop p ps' data).1 := by
  generalize hn : data.length = n
  induction n using Nat.strongRecOn generalizing data with
  | _ n ih =>
    intro ps ps'
    match data with
    | [] => simp [scanLoop]
    | b :: rest =>
      rw [scanLoop, scanLoop]
      simp only
      split
      · simp only
        rw [ih _ ?_ _ rfl]
        have := decodeRune_pos b rest
        simp only [List.length_cons, List.length_drop] at *
        omega
      · rfl

/-- Bytes skipped by the first loop. -/
def skipN (p : Nat → Bool) (data : List UInt8) : Nat := (skipLoop p {} data).1
/-- First non-token rune found by the second loop. -/
def scanF (p : Nat → Bool) (data : List UInt8) : Option (Nat × Nat) := (scanLoop p {} data).1

theorem skipN_nil (p) : skipN p [] = 0 := by simp [skipN, skipLoop]
theorem scanF_nil (p) : scanF p [] = none := by simp [scanF, scanLoop]

theorem skipN_cons (p : Nat → Bool) (b : UInt8) (r : List UInt8) :
    skipN p (b :: r) = if p (decodeRune (b :: r)).1 then 0
      else (decodeRune (b :: r)).2 + skipN p ((b :: r).drop (decodeRune (b :: r)).2) := by
  conv => lhs; rw [skipN, skipLoop]
  simp only
  split
  · rfl
  · simp only [skipN]; rw [skipLoop_fst]

theorem scanF_cons (p : Nat → Bool) (b : UInt8) (r : List UInt8) :
    scanF p (b :: r) = if p (decodeRune (b :: r)).1 then
        (scanF p ((b :: r).drop (decodeRune (b :: r)).2)).map
          (fun iw => ((decodeRune (b :: r)).2 + iw.1, iw.2))
      else some (0, (decodeRune (b :: r)).2) := by
  conv => lhs; rw [scanF, scanLoop]
  simp only
  split
  · simp only [scanF]; rw [scanLoop_fst]
  · rfl

/-- Strong induction over the runes of a byte string. -/
theorem rune_induction {P : List UInt8 → Prop} (h0 : P [])
    (h1 : ∀ b r, P ((b :: r).drop (decodeRune (b :: r)).2) → P (b :: r)) : ∀ l, P l := by
  intro l
  generalize hn : l.length = n
  induction n using Nat.strongRecOn generalizing l with
  | _ n ih =>
    match l with
    | [] => exact h0
    | b :: r =>
      refine h1 b r (ih _ ?_ _ rfl)
      have := decodeRune_pos b r
      simp only [List.length_cons, List.length_drop] at *
      omega

theorem skipN_le (p : Nat → Bool) (l : List UInt8) : skipN p l ≤ l.length := by
  induction l using rune_induction with
  | h0 => simp [skipN_nil]
  | h1 b r ih =>
    rw [skipN_cons]
    split
    · omega
    · have := decode_width_le b r
      simp only [List.length_drop, List.length_cons] at *
      omega

theorem scanF_bound (p : Nat → Bool) (l : List UInt8) :
    ∀ i w, scanF p l = some (i, w) → i + w ≤ l.length ∧ 0 < w := by
  induction l using rune_induction with
  | h0 => simp [scanF_nil]
  | h1 b r ih =>
    intro i w h
    rw [scanF_cons] at h
    have hw := decode_width_le b r
    split at h
    · match hq : scanF p ((b :: r).drop (decodeRune (b :: r)).2), h with
      | some (j, w'), h =>
        simp at h
        have := ih j w' hq
        simp only [List.length_drop, List.length_cons] at *
        omega
    · simp at h
      have := decodeRune_pos b r
      simp only [List.length_cons]
      omega

/-- After skipping, the next rune (if any) is a token rune. -/
theorem skipN_drop_skipN (p : Nat → Bool) (l : List UInt8) : skipN p (l.drop (skipN p l)) = 0 := by
  induction l using rune_induction with
  | h0 => simp [skipN_nil]
  | h1 b r ih =>
    rw [skipN_cons]
    split
    · rename_i h; simp [skipN_cons, h]
    · rwa [← List.drop_drop]

/-- A byte string that starts with a token rune (or is empty) has a positive first token. -/
theorem scanF_pos (p : Nat → Bool) (l : List UInt8) (h : skipN p l = 0) :
    ∀ i w, scanF p l = some (i, w) → 0 < i := by
  intro i w hs
  match l with
  | [] => simp [scanF_nil] at hs
  | b :: r =>
    have := decodeRune_pos b r
    rw [skipN_cons] at h
    rw [scanF_cons] at hs
    split at h
    · rename_i hp
      rw [if_pos hp] at hs
      match hq : scanF p ((b :: r).drop (decodeRune (b :: r)).2), hs with
      | some (j, w'), hs => simp at hs; omega
    · omega

/-! ### The split function in terms of the position-free loops -/

theorem splitFunc_eq (p : Nat → Bool) (ps : Pos) (data : List UInt8) (atEOF : Bool) :
    ∃ ps' l c, splitFunc p ps data atEOF =
      match scanF p (data.drop (skipN p data)) with
      | some (i, w) => (skipN p data + i + w, some ⟨(data.drop (skipN p data)).take i, l, c⟩, ps')
      | none => if atEOF && decide (skipN p data < data.length) then
            (data.length, some ⟨data.drop (skipN p data), l, c⟩, ps')
          else (skipN p data, none, ps') := by
  have h1 : (skipLoop p ps data).1 = skipN p data := skipLoop_fst p data _ _
  unfold splitFunc
  rcases hsk : skipLoop p ps data with ⟨start, ps1⟩
  rw [hsk] at h1
  simp only at h1
  subst h1
  simp only
  generalize hps2 : (if ps1.lastLine = -1 then _ else ps1) = ps2
  have h2 : (scanLoop p ps2 (data.drop (skipN p data))).1 = scanF p (data.drop (skipN p data)) :=
    scanLoop_fst p _ _ _
  rcases hsc : scanLoop p ps2 (data.drop (skipN p data)) with ⟨found, ps3⟩
  rw [hsc] at h2
  simp only at h2
  rw [← h2]
  match found with
  | some (i, w) => exact ⟨_, _, _, rfl⟩
  | none =>
    simp only
    split
    · exact ⟨_, _, _, rfl⟩
    · exact ⟨_, 0, 0, rfl⟩

end Quark.Tokenizer
