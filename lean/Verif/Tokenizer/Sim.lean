import Verif.Tokenizer.Lemmas

namespace Quark.Tokenizer

/-- The two kinds of scan functions the code uses: the replacement character is a token
character (non-whitespace), or only ASCII characters are (numeric). -/
def Good (p : Nat → Bool) : Prop :=
  p runeError = true ∨ ∀ r, p r = true → r < 0x80

theorem good_nonWhitespace : Good isNonWhitespace := Or.inl (by decide)

theorem good_numeric : Good isNumeric := by
  right
  intro r h
  simp only [isNumeric, Bool.or_eq_true, beq_iff_eq, Bool.and_eq_true, decide_eq_true_eq] at h
  omega

/-- Remaining bytes after skipping leading non-token runes. -/
def skipD (p : Nat → Bool) (l : List UInt8) : List UInt8 := l.drop (skipN p l)

theorem skipD_length_le (p) (l : List UInt8) : (skipD p l).length ≤ l.length := by
  simp [skipD]

/-- How much of a terminator of width `w` must be visible for it to be recognized. -/
def need (p : Nat → Bool) (w : Nat) : Nat := if p runeError then w else 1

/-- Reference tokenizer without buffer, window or reads. `e = 1` admits an unterminated last
token of exactly `max` bytes. -/
def ref (p : Nat → Bool) (max e : Nat) (R : List UInt8) : List (List UInt8) × Bool :=
  match skipD p R with
  | [] => ([], false)
  | _ :: _ =>
    match h : scanF p (skipD p R) with
    | some (i, w) =>
      if i + need p w ≤ max then
        let q := ref p max e ((skipD p R).drop (i + w))
        ((skipD p R).take i :: q.1, q.2)
      else ([], true)
    | none => if (skipD p R).length < max + e then ([skipD p R], false) else ([], true)
termination_by R.length
decreasing_by
  have h1 := scanF_bound _ _ _ _ h
  have h2 := skipD_length_le p R
  simp only [List.length_drop]
  omega

theorem ref_nil_of (p max e) (R : List UInt8) (h : skipD p R = []) : ref p max e R = ([], false) := by
  rw [ref, h]

theorem ref_some_of (p max e) (R : List UInt8) (i w : Nat) (h : scanF p (skipD p R) = some (i, w)) :
    ref p max e R = if i + need p w ≤ max then
        ((skipD p R).take i :: (ref p max e ((skipD p R).drop (i + w))).1,
          (ref p max e ((skipD p R).drop (i + w))).2)
      else ([], true) := by
  have hne : skipD p R ≠ [] := by intro hn; rw [hn, scanF_nil] at h; cases h
  rw [ref]
  split
  · contradiction
  · split
    · rename_i i' w' h'
      rw [h] at h'
      cases h'
      rfl
    · rename_i h'; rw [h] at h'; cases h'

theorem ref_none_of (p max e) (R : List UInt8) (h : scanF p (skipD p R) = none)
    (hne : skipD p R ≠ []) :
    ref p max e R = if (skipD p R).length < max + e then ([skipD p R], false) else ([], true) := by
  rw [ref]
  split
  · contradiction
  · split
    · rename_i i' w' h'; rw [h] at h'; cases h'
    · rfl

theorem ref_congr (p max e) (R R' : List UInt8) (h : skipD p R = skipD p R') :
    ref p max e R = ref p max e R' := by
  rcases hs : scanF p (skipD p R) with _ | ⟨i, w⟩
  · by_cases hne : skipD p R = []
    · rw [ref_nil_of _ _ _ _ hne, ref_nil_of _ _ _ _ (h ▸ hne)]
    · rw [ref_none_of _ _ _ _ hs hne, ref_none_of _ _ _ _ (h ▸ hs) (h ▸ hne), h]
  · rw [ref_some_of p max e R i w hs, ref_some_of p max e R' i w (h ▸ hs), h]

/-! ### Byte-level view for ASCII-only scan functions -/

def tokB (p : Nat → Bool) (b : UInt8) : Bool := decide (b.toNat < 0x80) && p b.toNat

section ascii
variable {p : Nat → Bool} (hp : ∀ r, p r = true → r < 0x80)
include hp

theorem decode_tok (b : UInt8) (r : List UInt8) :
    p (decodeRune (b :: r)).1 = tokB p b := by
  rcases decode_cases b r with h | h | ⟨v, h1, h2, h3, _⟩
  · simp [h, tokB]
  · have : p runeError = false := by
      cases h' : p runeError
      · rfl
      · have := hp _ h'; simp [runeError] at this
    have h2 : ¬ b.toNat < 128 := by omega
    simp [h, tokB, this, h2]
  · have : p v = false := by
      cases h' : p v
      · rfl
      · have := hp _ h'; omega
    have h2 : ¬ b.toNat < 128 := by omega
    simp [h1, tokB, this, h2]

/-- If a token byte starts a rune, it is the whole rune. -/
theorem decode_tok_width (b : UInt8) (r : List UInt8) (h : tokB p b = true) :
    (decodeRune (b :: r)).2 = 1 := by
  have : b.toNat < 0x80 := by simp [tokB] at h; exact h.1
  simp [decode_ascii _ _ this]

/-- All bytes of a non-token rune are non-token bytes. -/
theorem decode_nontok (b : UInt8) (r : List UInt8) (h : tokB p b = false) :
    ∀ c ∈ (b :: r).take (decodeRune (b :: r)).2, tokB p c = false := by
  intro c hc
  rcases decode_cases b r with h' | h' | ⟨v, h1, h2, h3, h4, h5, h6⟩
  · simp [h'] at hc; rw [hc]; exact h
  · simp [h'] at hc; rw [hc]; exact h
  · rw [h1] at hc
    obtain ⟨n, hn⟩ : ∃ n, seqLen b = n + 1 := ⟨seqLen b - 1, by omega⟩
    simp only [hn, List.take_succ_cons, List.mem_cons] at hc
    rcases hc with rfl | hc
    · exact h
    · have := h6 c (by simpa [hn] using hc)
      simp [tokB]; omega

theorem dropWhile_drop {α} (q : α → Bool) (l : List α) (w : Nat)
    (h : ∀ c ∈ l.take w, q c = true) : l.dropWhile q = (l.drop w).dropWhile q := by
  induction l generalizing w with
  | nil => simp
  | cons a l ih =>
    cases w with
    | zero => simp
    | succ w =>
      have ha : q a = true := h a (by simp)
      rw [List.dropWhile_cons, if_pos ha, List.drop_succ_cons]
      exact ih w (fun c hc => h c (by simp [hc]))

theorem skipD_ascii (l : List UInt8) : skipD p l = l.dropWhile (fun b => !tokB p b) := by
  induction l using rune_induction with
  | h0 => simp [skipD]
  | h1 b r ih =>
    unfold skipD at *
    rw [skipN_cons, decode_tok hp]
    split
    · rename_i h; simp [h]
    · rename_i h
      rw [← List.drop_drop, ih, ← dropWhile_drop hp]
      intro c hc
      have := decode_nontok hp b r (by simpa using h) c hc
      simp [this]

theorem scanF_none_ascii (l : List UInt8) (h : scanF p l = none) : ∀ b ∈ l, tokB p b = true := by
  induction l using rune_induction with
  | h0 => simp
  | h1 b r ih =>
    rw [scanF_cons, decode_tok hp] at h
    split at h
    · rename_i hb
      rw [decode_tok_width hp b r hb] at h ih
      simp at h ih
      intro c hc
      rcases List.mem_cons.mp hc with rfl | hc
      · exact hb
      · exact ih h c hc
    · cases h

theorem scanF_some_ascii (l : List UInt8) : ∀ i w, scanF p l = some (i, w) →
    (∀ b ∈ l.take i, tokB p b = true) ∧ (∀ b ∈ (l.drop i).take w, tokB p b = false) := by
  induction l using rune_induction with
  | h0 => simp [scanF_nil]
  | h1 b r ih =>
    intro i w h
    rw [scanF_cons, decode_tok hp] at h
    split at h
    · rename_i hb
      rw [decode_tok_width hp b r hb] at h ih
      simp only [List.drop_succ_cons, List.drop_zero] at h ih
      match hq : scanF p r, h with
      | some (j, w'), h =>
        simp at h
        obtain ⟨rfl, rfl⟩ := h
        have := ih j w' hq
        rw [Nat.add_comm]
        simp only [List.take_succ_cons, List.drop_succ_cons]
        refine ⟨?_, this.2⟩
        intro c hc
        rcases List.mem_cons.mp hc with rfl | hc
        · exact hb
        · exact this.1 c hc
    · rename_i hb
      simp only [Option.some.injEq, Prod.mk.injEq] at h
      obtain ⟨rfl, rfl⟩ := h
      simp only [List.take_zero, List.not_mem_nil, false_imp_iff, implies_true, List.drop_zero,
        true_and]
      exact decode_nontok hp b r (by simpa using hb)

end ascii

theorem getElem_mem_take {α} (l : List α) (i n : Nat) (h : i < l.length) (hn : i < n) :
    l[i] ∈ l.take n := by
  rw [List.mem_take_iff_getElem]
  exact ⟨i, by omega, rfl⟩

theorem getElem_mem_drop_take {α} (l : List α) (i w : Nat) (h : i < l.length) (hw : 0 < w) :
    l[i] ∈ (l.drop i).take w := by
  rw [List.mem_take_iff_getElem]
  exact ⟨0, by simp; omega, by simp⟩

/-! ### Window versus full stream -/

/-- Skipping leading runes inside a window is the same as skipping them in the stream. -/
theorem skipD_window (p : Nat → Bool) (hp : Good p) (win x : List UInt8) :
    skipD p (win ++ x) = skipD p (skipD p win ++ x) := by
  rcases hp with hp | hp
  · induction win using rune_induction with
    | h0 => simp [skipD]
    | h1 b r ih =>
      by_cases hc : seqLen b ≤ r.length + 1
      · have hst := decode_stable b r x hc
        by_cases ht : p (decodeRune (b :: r)).1
        · have : skipD p (b :: r) = b :: r := by simp [skipD, skipN_cons, ht]
          rw [this]
        · have h1 : skipD p (b :: r) = skipD p ((b :: r).drop (decodeRune (b :: r)).2) := by
            simp only [skipD]
            rw [skipN_cons, if_neg ht, List.drop_drop]
          rw [h1, ← ih]
          have hw := decode_width_le b r
          have h2 : ((b :: r).drop (decodeRune (b :: r)).2) ++ x
              = ((b :: r) ++ x).drop (decodeRune (b :: r)).2 := by
            rw [List.drop_append_of_le_length (by simpa using hw)]
          rw [h2]
          simp only [skipD, List.cons_append]
          rw [skipN_cons, hst, if_neg ht, List.drop_drop]
      · have hd := decode_incomplete b r (by omega)
        have : skipD p (b :: r) = b :: r := by simp [skipD, skipN_cons, hd, hp]
        rw [this]
  · simp only [skipD_ascii hp]
    induction win with
    | nil =>
      simp only [List.nil_append, List.dropWhile_nil]
    | cons a win ih =>
      by_cases h : (!tokB p a) = true
      · simp only [List.cons_append, List.dropWhile_cons, h, if_true]
        exact ih
      · simp [List.dropWhile_cons, h]

theorem scanF_cont_none (p : Nat → Bool) (hp : p runeError = true) (r : List UInt8)
    (h : ∀ c ∈ r, 0x80 ≤ c.toNat ∧ c.toNat ≤ 0xBF) : scanF p r = none := by
  induction r with
  | nil => exact scanF_nil p
  | cons b r ih =>
    rw [scanF_cons, decode_cont b r (h b (by simp)), if_pos hp]
    simp [ih (fun c hc => h c (by simp [hc]))]

/-- A terminator found in a window is the terminator in the stream (non-ASCII-only case). -/
theorem scanF_window_err (p : Nat → Bool) (hp : p runeError = true) (win x : List UInt8) :
    ∀ i w, scanF p win = some (i, w) → scanF p (win ++ x) = some (i, w) := by
  induction win using rune_induction with
  | h0 => simp [scanF_nil]
  | h1 b r ih =>
    intro i w h
    by_cases hc : seqLen b ≤ r.length + 1
    · have hst := decode_stable b r x hc
      have hw := decode_width_le b r
      rw [scanF_cons] at h
      rw [List.cons_append, scanF_cons, hst]
      have h2 : ((b :: r).drop (decodeRune (b :: r)).2) ++ x
          = (b :: (r ++ x)).drop (decodeRune (b :: r)).2 := by
        rw [← List.cons_append, List.drop_append_of_le_length (by simpa using hw)]
      split at h
      · rename_i ht
        rw [if_pos ht]
        match hq : scanF p ((b :: r).drop (decodeRune (b :: r)).2), h with
        | some (j, w'), h =>
          rw [← h2, ih j w' hq]
          exact h
      · rename_i ht
        rw [if_neg ht]; exact h
    · have hd := decode_incomplete b r (by omega)
      rw [scanF_cons, hd, if_pos hp] at h
      rw [hd] at ih
      simp only [List.drop_succ_cons, List.drop_zero] at h ih
      rcases decode_cut b r x (by omega) with hfull | hcont
      · rw [List.cons_append, scanF_cons, hfull, if_pos hp]
        simp only [List.drop_succ_cons, List.drop_zero]
        match hq : scanF p r, h with
        | some (j, w'), h => rw [ih j w' hq]; exact h
      · rw [scanF_cont_none p hp r hcont] at h
        cases h

/-- A terminator of the stream that lies inside the window is found in the window. -/
theorem scanF_of_full (p : Nat → Bool) (win x : List UInt8) :
    ∀ i w, scanF p (win ++ x) = some (i, w) → i + w ≤ win.length → scanF p win = some (i, w) := by
  induction win using rune_induction with
  | h0 =>
    intro i w h hle
    have := scanF_bound p _ i w h
    simp at hle; omega
  | h1 b r ih =>
    intro i w h hle
    have key : decodeRune (b :: (r ++ x)) = decodeRune (b :: r) := by
      by_cases hc : seqLen b ≤ r.length + 1
      · exact decode_stable b r x hc
      · rw [decode_incomplete b r (by omega)]
        rcases decode_cases b (r ++ x) with h' | h' | ⟨v, h1, -⟩
        · have := seqLen_ascii b h'.2; omega
        · exact h'.1
        · exfalso
          rw [List.cons_append, scanF_cons, h1] at h
          split at h
          · match hq : scanF p ((b :: (r ++ x)).drop (v, seqLen b).2), h with
            | some (j, w'), h =>
              simp at h hle
              omega
          · simp at h hle; omega
    have hw := decode_width_le b r
    rw [List.cons_append, scanF_cons, key] at h
    rw [scanF_cons]
    have h2 : ((b :: r).drop (decodeRune (b :: r)).2) ++ x
        = (b :: (r ++ x)).drop (decodeRune (b :: r)).2 := by
      rw [← List.cons_append, List.drop_append_of_le_length (by simpa using hw)]
    split at h
    · rename_i ht
      rw [if_pos ht]
      rw [← h2] at h
      match hq : scanF p ((b :: r).drop (decodeRune (b :: r)).2 ++ x), h with
      | some (j, w'), h =>
        simp at h
        rw [ih j w' hq (by simp only [List.length_drop, List.length_cons] at *; omega)]
        simp; exact h
    · rename_i ht
      rw [if_neg ht]; exact h

/-- The window already shows a complete first token: so does the stream. -/
theorem scan_found (p : Nat → Bool) (hp : Good p) (win x : List UInt8) (i w : Nat)
    (h0 : skipN p win = 0) (h : scanF p win = some (i, w)) :
    skipN p (win ++ x) = 0 ∧ ∃ w', scanF p (win ++ x) = some (i, w') ∧ need p w' ≤ w ∧
      skipD p ((win ++ x).drop (i + w')) = skipD p ((win ++ x).drop (i + w)) := by
  have hb := scanF_bound p win i w h
  have hi := scanF_pos p win h0 i w h
  rcases hp with hp | hp
  · have h' := scanF_window_err p hp win x i w h
    refine ⟨?_, w, h', by simp [need, hp], rfl⟩
    match win with
    | [] => simp [scanF_nil] at h
    | b :: r =>
      rw [scanF_cons] at h
      rw [List.cons_append, skipN_cons]
      rw [List.cons_append, scanF_cons] at h'
      split at h'
      · rename_i ht; rw [if_pos ht]
      · simp at h'; omega
  · obtain ⟨ha1, ha2⟩ := scanF_some_ascii hp win i w h
    have hil : i < win.length := by omega
    have hnt : tokB p win[i] = false := ha2 _ (getElem_mem_drop_take win i w hil hb.2)
    have hstart : ∀ l : List UInt8, skipN p (win ++ l) = 0 := by
      intro l
      match win, h0 with
      | [], _ => simp at hil
      | b :: r, h0 =>
        rw [skipN_cons, decode_tok hp] at h0
        rw [List.cons_append, skipN_cons, decode_tok hp]
        split at h0
        · rename_i ht; rw [if_pos ht]
        · have := decodeRune_pos b r; omega
    refine ⟨hstart x, ?_⟩
    have hil' : i < (win ++ x).length := by simp; omega
    have hget : (win ++ x)[i] = win[i] := List.getElem_append_left hil
    rcases hf : scanF p (win ++ x) with _ | ⟨i', w'⟩
    · have := scanF_none_ascii hp _ hf win[i] (by simp)
      rw [hnt] at this; cases this
    · have hb' := scanF_bound p _ i' w' hf
      obtain ⟨hc1, hc2⟩ := scanF_some_ascii hp _ i' w' hf
      have hii : i' = i := by
        rcases Nat.lt_trichotomy i' i with hlt | heq | hgt
        · have h1 : tokB p (win ++ x)[i'] = false :=
            hc2 _ (getElem_mem_drop_take _ i' w' (by omega) hb'.2)
          have h2 : (win ++ x)[i'] = win[i'] := List.getElem_append_left (by omega)
          have h3 := ha1 _ (getElem_mem_take win i' i (by omega) hlt)
          rw [h2, h3] at h1; cases h1
        · exact heq
        · have h3 := hc1 _ (getElem_mem_take _ i i' hil' hgt)
          rw [hget, hnt] at h3; cases h3
      subst hii
      have hpe : p runeError = false := by
        cases h' : p runeError
        · rfl
        · have := hp _ h'; simp [runeError] at this
      refine ⟨w', rfl, by simp [need, hpe]; omega, ?_⟩
      have e1 : ∀ v, (∀ b ∈ ((win ++ x).drop i').take v, tokB p b = false) →
          skipD p ((win ++ x).drop (i' + v)) = skipD p ((win ++ x).drop i') := by
        intro v hv
        rw [skipD_ascii hp, skipD_ascii hp, ← List.drop_drop,
          ← dropWhile_drop hp _ _ v]
        intro c hc
        simp [hv c hc]
      rw [e1 w' hc2, e1 w ?_]
      rw [List.drop_append_of_le_length (by omega), List.take_append_of_le_length (by simp; omega)]
      exact ha2

/-- A window of `max` bytes showing an unterminated token: the token is too long. -/
theorem scan_tooLong (p : Nat → Bool) (hp : Good p) (win x : List UInt8)
    (hlen : 4 ≤ win.length) (h0 : skipN p win = 0) (h : scanF p win = none) :
    ref p win.length 0 (win ++ x) = ([], true) := by
  have hs : skipN p (win ++ x) = 0 := by
    match win with
    | [] => simp at hlen
    | b :: r =>
      have := seqLen_le b
      simp at hlen
      rw [skipN_cons] at h0
      rw [List.cons_append, skipN_cons, decode_stable b r x (by omega)]
      split at h0
      · rename_i ht; rw [if_pos ht]
      · have := decodeRune_pos b r; omega
  have hd : skipD p (win ++ x) = win ++ x := by simp [skipD, hs]
  have hne : skipD p (win ++ x) ≠ [] := by
    rw [hd]; intro hn; simp at hn; simp [hn.1] at hlen
  rcases hf : scanF p (win ++ x) with _ | ⟨i, w⟩
  · rw [ref_none_of p _ 0 (win ++ x) (by rw [hd]; exact hf) hne, if_neg]
    rw [hd]; simp
  · rw [ref_some_of p _ 0 (win ++ x) i w (by rw [hd]; exact hf), if_neg]
    intro hle
    rcases hp with hp | hp
    · simp [need, hp] at hle
      have := scanF_of_full p win x i w hf hle
      rw [h] at this; cases this
    · have hpe : p runeError = false := by
        cases h' : p runeError
        · rfl
        · have := hp _ h'; simp [runeError] at this
      simp [need, hpe] at hle
      have hb := scanF_bound p _ i w hf
      have h1 := (scanF_some_ascii hp _ i w hf).2 _ (getElem_mem_drop_take _ i w (by omega) hb.2)
      rw [List.getElem_append_left (by omega)] at h1
      rw [scanF_none_ascii hp win h _ (List.getElem_mem (by omega))] at h1
      cases h1

/-! ### Simulation -/

/-- Invariant of the scanner between turns. -/
structure Inv (lim : Nat) (dual : Bool) (s : Scanner) : Prop where
  fits : s.start + s.win.length ≤ s.bufLen
  cap : s.bufLen ≤ lim
  noTooLong : s.err ≠ some .tooLong
  atEOF : s.err = some .eof → s.rest = [] ∧ (dual = false → s.win.length < lim)
  sched : dual = false → ∀ c ∈ s.sched, c.eofWithData = false

/-- Termination measure of the scanner. -/
def Scanner.measure (s : Scanner) : Nat :=
  2 * s.rest.length + s.win.length + (if s.err = none then 1 else 0)

theorem refill_more (lim : Nat) (dual : Bool) (s : Scanner) (hi : Inv lim dual s) (he : s.err = none)
    (hlt : s.win.length < lim) :
    ∃ s', s.refill lim = .more s' ∧ Inv lim dual s' ∧ s'.win ++ s'.rest = s.win ++ s.rest ∧
      s'.measure < s.measure := by
  obtain ⟨hf, hc, -, -, hsch⟩ := hi
  -- shift and grow
  have hshift : ∃ st, s.shift = { s with start := st } ∧ st + s.win.length ≤ s.bufLen ∧
      (st + s.win.length = s.bufLen → st = 0) := by
    unfold Scanner.shift
    split
    · exact ⟨0, rfl, by omega, by omega⟩
    · rename_i h
      refine ⟨s.start, rfl, hf, ?_⟩
      intro h'
      omega
  obtain ⟨st, hs1, hs2, hs3⟩ := hshift
  have hgrow : ∃ st' bl', (s.shift.grow lim) = .ok { s with start := st', bufLen := bl' } ∧
      st' + s.win.length < bl' ∧ bl' ≤ lim := by
    rw [hs1]
    unfold Scanner.grow
    simp only
    split
    · rename_i hfull
      have := hs3 hfull
      split
      · omega
      · refine ⟨_, _, rfl, ?_, ?_⟩
        · split <;> omega
        · omega
    · exact ⟨st, s.bufLen, rfl, by omega, hc⟩
  obtain ⟨st', bl', hg, hg1, hg2⟩ := hgrow
  refine ⟨_, by unfold Scanner.refill; rw [he]; simp only; rw [hg], ?_⟩
  unfold Scanner.read
  simp only
  have htail : dual = false → ∀ c ∈ s.sched.tail, c.eofWithData = false :=
    fun hd c hc => hsch hd c (List.mem_of_mem_tail hc)
  have hhead : dual = false → ∀ n, (s.sched.headD { n := n }).eofWithData = false := by
    intro hd n
    match hsd : s.sched with
    | [] => rfl
    | c :: _ => exact hsch hd c (by simp [hsd])
  match hr : s.rest with
  | [] =>
    refine ⟨⟨by simp; omega, hg2, by simp, ?_, htail⟩, by simp [hr], ?_⟩
    · intro _
      exact ⟨by simp, fun _ => by simpa using hlt⟩
    · simp [Scanner.measure, he, hr]
  | a :: l =>
    generalize hcc : s.sched.headD { n := bl' - (st' + s.win.length) } = cc
    generalize hn : max 1 (min cc.n (min (bl' - (st' + s.win.length)) (a :: l).length)) = n
    have h2 : 1 ≤ (a :: l).length := by simp
    have hn' : 1 ≤ n ∧ n ≤ bl' - (st' + s.win.length) ∧ n ≤ (a :: l).length := by
      omega
    refine ⟨⟨?_, hg2, ?_, ?_, htail⟩, ?_, ?_⟩
    · simp only [List.length_append, List.length_take]
      simp only [List.length_cons] at hn' ⊢
      omega
    · simp only; split <;> simp
    · simp only
      intro he
      split at he
      · rename_i hb
        simp only [Bool.and_eq_true, decide_eq_true_eq] at hb
        refine ⟨by rw [hb.2]; simp, ?_⟩
        intro hd
        have := hhead hd (bl' - (st' + s.win.length))
        rw [hcc, hb.1] at this
        cases this
      · cases he
    · simp
    · simp only [Scanner.measure, he, if_true, List.length_append, List.length_take,
        List.length_drop]
      simp only [hr, List.length_cons] at hn' ⊢
      have hle : ∀ (P : Prop) [Decidable P], (if P then 1 else 0 : Nat) ≤ 1 := by
        intro P _; split <;> omega
      refine Nat.lt_of_le_of_lt (Nat.add_le_add_left (hle _) _) ?_
      omega

/-- One turn of the scanner loop preserves the reference result. -/
theorem turn_sim (p : Nat → Bool) (hp : Good p) (lim : Nat) (hm : 4 ≤ lim) (dual : Bool)
    (s : Scanner) (hi : Inv lim dual s) :
    (∃ s', s.turn p lim = .stop s' ∧
      ref p lim 0 (s.win ++ s.rest) = ([], s'.err == some .tooLong)) ∨
    (∃ s', s.turn p lim = .more s' ∧ Inv lim dual s' ∧ s'.measure < s.measure ∧
      ∀ e, ref p lim e (s.win ++ s.rest) = ref p lim e (s'.win ++ s'.rest)) ∨
    (∃ t s', s.turn p lim = .token t s' ∧ Inv lim dual s' ∧ s'.measure < s.measure ∧
      ((∀ e, ref p lim e (s.win ++ s.rest) =
        (t.text :: (ref p lim e (s'.win ++ s'.rest)).1, (ref p lim e (s'.win ++ s'.rest)).2)) ∨
       (dual = true ∧ s'.win ++ s'.rest = [] ∧
        ref p lim 1 (s.win ++ s.rest) = ([t.text], false)))) := by
  have hwl : s.win.length ≤ lim := by have := hi.fits; have := hi.cap; omega
  unfold Scanner.turn
  split
  · rename_i hcond
    obtain ⟨ps, l, c, hsp⟩ := splitFunc_eq p s.pos s.win s.err.isSome
    rw [hsp]
    have hk := skipN_le p s.win
    have hdrop : s.win.drop (skipN p s.win) = skipD p s.win := rfl
    have hskip0 : skipN p (skipD p s.win) = 0 := skipN_drop_skipN p s.win
    have hrefW : ∀ e, ref p lim e (s.win ++ s.rest) = ref p lim e (skipD p s.win ++ s.rest) :=
      fun e => ref_congr _ _ _ _ _ (skipD_window p hp _ _)
    have hsl : (skipD p s.win).length = s.win.length - skipN p s.win := by simp [skipD]
    rw [hdrop]
    rcases hf : scanF p (skipD p s.win) with _ | ⟨i, w⟩
    · simp only
      by_cases he : s.err = none
      · -- more data needed
        simp only [he, Option.isSome_none, Bool.false_and, Bool.false_eq_true, if_false]
        rw [hdrop]
        generalize hs' : (Scanner.mk (skipD p s.win) (s.start + skipN p s.win) s.bufLen none ps
          s.rest s.sched) = s'
        have hi' : Inv lim dual s' := by
          subst hs'
          refine ⟨?_, hi.cap, by simp, by simp, hi.sched⟩
          have := hi.fits
          simp only [hsl]; omega
        have he' : s'.err = none := by subst hs'; rfl
        have hw' : s'.win = skipD p s.win := by subst hs'; rfl
        have hr' : s'.rest = s.rest := by subst hs'; rfl
        have hm' : s'.measure ≤ s.measure := by
          simp only [Scanner.measure, hw', hr', he', he]; omega
        by_cases hlt : s'.win.length < lim
        · right; left
          obtain ⟨s'', h1, h2, h3, h4⟩ := refill_more lim dual s' hi' he' hlt
          refine ⟨s'', ?_, h2, by omega, ?_⟩
          · rw [← h1, ← hs']
          · intro e; rw [h3, hw', hr']; exact hrefW e
        · left
          rw [hw'] at hlt
          have hlen : (skipD p s.win).length = lim := by omega
          have hst : s'.start = 0 := by
            have h1 := hi'.fits; have h2 := hi'.cap; rw [hw'] at h1; omega
          have hbl : s'.bufLen = lim := by
            have h1 := hi'.fits; have h2 := hi'.cap; rw [hw'] at h1; omega
          have hrf : s'.refill lim = .stop { s' with err := some .tooLong } := by
            simp [Scanner.refill, he', Scanner.shift, Scanner.grow, hst, hbl, hw', hlen]
          refine ⟨_, by rw [← hrf, ← hs'], ?_⟩
          rw [hrefW]
          have := scan_tooLong p hp (skipD p s.win) s.rest (by omega) hskip0 hf
          rw [hlen] at this
          rw [this]; rfl
      · have he2 : s.err = some .eof := by
          have := hi.noTooLong
          match h : s.err with
          | none => exact absurd h he
          | some .eof => rfl
          | some .tooLong => exact absurd h this
        obtain ⟨hr, hl⟩ := hi.atEOF he2
        simp only [he2, Option.isSome_some, Bool.true_and, decide_eq_true_eq]
        rw [hr] at hrefW
        simp only [List.append_nil] at hrefW
        rw [hr, List.append_nil]
        have hdd : skipD p (skipD p s.win) = skipD p s.win := by
          conv => lhs; unfold skipD
          rw [show skipN p (List.drop (skipN p s.win) s.win) = 0 from hskip0]; simp [skipD]
        by_cases hlast : skipN p s.win < s.win.length
        · right; right
          rw [if_pos hlast]
          refine ⟨_, _, rfl, ?_, ?_, ?_⟩
          · refine ⟨?_, hi.cap, by simp, ?_, hi.sched⟩
            · have := hi.fits; simp; omega
            · intro _; exact ⟨rfl, fun _ => by simp; omega⟩
          · simp [Scanner.measure, he2]; omega
          · simp only [List.drop_length, List.append_nil]
            have h2 : ∀ e, ref p lim e [] = ([], false) :=
              fun e => ref_nil_of _ _ _ _ (by simp [skipD])
            have h3 : ∀ e, (skipD p s.win).length < lim + e →
                ref p lim e s.win = ([skipD p s.win], false) := by
              intro e hlen
              rw [hrefW, ref_none_of p lim e (skipD p s.win) (by rw [hdd]; exact hf)
                (by rw [hdd]; intro hn; rw [hn] at hsl; simp at hsl; omega)]
              rw [hdd, if_pos hlen]
            by_cases hd : dual = false
            · left
              intro e
              have := hl hd
              rw [h2, h3 e (by omega)]
            · right
              exact ⟨by simpa using hd, trivial, h3 1 (by omega)⟩
        · left
          rw [if_neg hlast]
          refine ⟨_, by unfold Scanner.refill; rfl, ?_⟩
          simp only
          rw [ref_nil_of]
          · rfl
          · rw [← List.length_eq_zero_iff, hsl]; omega
    · -- a terminated token
      right; right
      have hb := scanF_bound p _ i w hf
      obtain ⟨hz, w', hf', hneed, hsame⟩ := scan_found p hp (skipD p s.win) s.rest i w hskip0 hf
      have hdd : skipD p (skipD p s.win ++ s.rest) = skipD p s.win ++ s.rest := by
        conv => lhs; unfold skipD
        rw [show skipN p (List.drop (skipN p s.win) s.win ++ s.rest) = 0 from hz]; simp [skipD]
      have hdrop2 : (skipD p s.win ++ s.rest).drop (i + w)
          = s.win.drop (skipN p s.win + i + w) ++ s.rest := by
        rw [List.drop_append_of_le_length (by omega)]
        simp only [skipD, List.drop_drop]
        congr 2; omega
      refine ⟨_, _, rfl, ?_, ?_, ?_⟩
      · refine ⟨?_, hi.cap, hi.noTooLong, ?_, hi.sched⟩
        · have := hi.fits; simp only [List.length_drop]; omega
        · intro he; obtain ⟨h1, h2⟩ := hi.atEOF he
          exact ⟨h1, fun hd => by have := h2 hd; simp only [List.length_drop]; omega⟩
      · simp only [Scanner.measure, List.length_drop]; omega
      · left
        intro e
        simp only
        rw [hrefW, ref_some_of p lim e _ i w' (by rw [hdd]; exact hf'), hdd,
          if_pos (by omega), List.take_append_of_le_length (by omega), ← hdrop2,
          ref_congr p lim e _ _ hsame]
  · rename_i hcond
    have hw : s.win = [] := by
      cases h : s.win with
      | nil => rfl
      | cons a l => exact absurd (Or.inl (by simp [h])) hcond
    have he : s.err = none := by
      cases h : s.err with
      | none => rfl
      | some e => exact absurd (Or.inr (by simp [h])) hcond
    right; left
    obtain ⟨s'', h1, h2, h3, h4⟩ := refill_more lim dual s hi he (by simp [hw]; omega)
    exact ⟨s'', h1, h2, h4, fun e => by rw [h3]⟩

theorem runScanner_sim (p : Nat → Bool) (hp : Good p) (lim : Nat) (hm : 4 ≤ lim) (dual : Bool) :
    ∀ (fuel : Nat) (s : Scanner), Inv lim dual s → s.measure < fuel →
    ∃ ts err e, runScanner p lim fuel s = some (ts, err) ∧ e ≤ 1 ∧ (dual = false → e = 0) ∧
      ref p lim e (s.win ++ s.rest) = (ts.map Token.text, err == some .tooLong) := by
  intro fuel
  induction fuel with
  | zero => intro s _ h; omega
  | succ fuel ih =>
    intro s hi hf
    rcases turn_sim p hp lim hm dual s hi with
      ⟨s', h1, h2⟩ | ⟨s', h1, h2, h3, h4⟩ | ⟨t, s', h1, h2, h3, h4⟩
    · exact ⟨[], s'.err, 0, by simp [runScanner, h1], by omega, fun _ => rfl, by simpa using h2⟩
    · obtain ⟨ts, er, e, ha, he, hd, hb⟩ := ih s' h2 (by omega)
      exact ⟨ts, er, e, by simp [runScanner, h1, ha], he, hd, by rw [h4, hb]⟩
    · obtain ⟨ts, er, e, ha, he, hd, hb⟩ := ih s' h2 (by omega)
      rcases h4 with h4 | ⟨h4, h5, h6⟩
      · exact ⟨t :: ts, er, e, by simp [runScanner, h1, ha], he, hd, by rw [h4, hb]; simp⟩
      · refine ⟨t :: ts, er, 1, by simp [runScanner, h1, ha], by omega, by simp [h4], ?_⟩
        have h2 : ref p lim e [] = ([], false) := ref_nil_of _ _ _ _ (by simp [skipD])
        rw [h5, h2] at hb
        rw [h6]
        simp only [Prod.mk.injEq] at hb
        rw [List.map_cons, ← hb.1, ← hb.2]

/-- Whatever the reads, the scanner computes the reference tokenization. -/
theorem tokenize_eq_ref (p : Nat → Bool) (hp : Good p) (lim : Nat) (hm : 4 ≤ lim) (dual : Bool)
    (stream : List UInt8) (sched : List ReadChoice)
    (hs : dual = false → ∀ c ∈ sched, c.eofWithData = false) :
    ∃ ts e, e ≤ 1 ∧ (dual = false → e = 0) ∧
      tokenize p lim stream sched = some (ts, (ref p lim e stream).2) ∧
      ts.map Token.text = (ref p lim e stream).1 := by
  have hi : Inv lim dual (newTokenizer stream sched) :=
    ⟨by simp [newTokenizer], by simp [newTokenizer], by simp [newTokenizer],
      by simp [newTokenizer], hs⟩
  obtain ⟨ts, er, e, h1, he, hd, h2⟩ :=
    runScanner_sim p hp lim hm dual (2 * stream.length + 3) _ hi
      (by simp [Scanner.measure, newTokenizer])
  simp only [newTokenizer, List.nil_append] at h2
  exact ⟨ts, e, he, hd, by unfold tokenize; rw [h1, h2]; rfl, by rw [h2]⟩

end Quark.Tokenizer
