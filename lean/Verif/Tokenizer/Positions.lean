import Verif.Tokenizer.Props

/-! Property C150: the positions of the tokens. -/
namespace Quark.Tokenizer

/-! ### Specification -/

/-- The line and column (in characters, both from one) of every character of `runes` that begins a run of token
characters; `inside`: the character before belongs to a run; `line`, `col`: the position of the first character. -/
def starts (p : Nat → Bool) : (inside : Bool) → (line col : Int) → (runes : List Nat) → List (Int × Int)
  | _, _, _, [] => []
  | inside, line, col, r :: rs =>
    let next := if r = 0x0A then starts p (p r) (line + 1) 1 rs else starts p (p r) line (col + 1) rs
    if p r = true ∧ inside = false then (line, col) :: next else next

/-- The true positions of the tokens of a stream. -/
def truePositions (p : Nat → Bool) (stream : List UInt8) : List (Int × Int) :=
  starts p false 1 1 ((runesOf stream).map Prod.fst)

example : truePositions isNonWhitespace [0x61, 0x20, 0xC3, 0xA9, 0x0A, 0x0A, 0x20, 0x62, 0x63]
    = [(1, 1), (1, 3), (3, 2)] := by decide +kernel

/-! ### The two loops -/

theorem starts_cons (p : Nat → Bool) (inside : Bool) (ps : Pos) (b : UInt8) (r : List UInt8) :
    starts p inside ps.line ps.column ((runesOf (b :: r)).map Prod.fst) =
      (if p (decodeRune (b :: r)).1 = true ∧ inside = false then [(ps.line, ps.column)] else []) ++
      starts p (p (decodeRune (b :: r)).1) (ps.bump (decodeRune (b :: r)).1).line
        (ps.bump (decodeRune (b :: r)).1).column
        ((runesOf ((b :: r).drop (decodeRune (b :: r)).2)).map Prod.fst) := by
  rw [runesOf_cons, List.map_cons, starts]
  simp only [Pos.bump]
  by_cases h : (decodeRune (b :: r)).1 = 0x0A
  · simp only [h, if_true]
    split <;> simp
  · simp only [h, if_false]
    split <;> simp

theorem bump_last (ps : Pos) (r : Nat) : (ps.bump r).lastLine = ps.lastLine ∧ (ps.bump r).lastColumn = ps.lastColumn := by
  unfold Pos.bump; split <;> simp

theorem skipD_cons (p : Nat → Bool) (b : UInt8) (r : List UInt8) (h : p (decodeRune (b :: r)).1 = false) :
    skipD p (b :: r) = skipD p ((b :: r).drop (decodeRune (b :: r)).2) := by
  simp only [skipD]
  rw [skipN_cons, if_neg (by simp [h]), List.drop_drop]

theorem skipLoop_cons (p : Nat → Bool) (ps : Pos) (b : UInt8) (r : List UInt8) :
    (skipLoop p ps (b :: r)).2 = if p (decodeRune (b :: r)).1 then ps
      else (skipLoop p (ps.bump (decodeRune (b :: r)).1) ((b :: r).drop (decodeRune (b :: r)).2)).2 := by
  rw [skipLoop]
  simp only
  split <;> rfl

theorem scanLoop_cons (p : Nat → Bool) (ps : Pos) (b : UInt8) (r : List UInt8) :
    (scanLoop p ps (b :: r)).2 = if p (decodeRune (b :: r)).1 then
        (scanLoop p (ps.bump (decodeRune (b :: r)).1) ((b :: r).drop (decodeRune (b :: r)).2)).2
      else ps.bump (decodeRune (b :: r)).1 := by
  rw [scanLoop]
  simp only
  split <;> rfl

theorem skip_last (p : Nat → Bool) (data : List UInt8) : ∀ ps : Pos,
    (skipLoop p ps data).2.lastLine = ps.lastLine ∧ (skipLoop p ps data).2.lastColumn = ps.lastColumn := by
  induction data using rune_induction with
  | h0 => intro ps; simp [skipLoop]
  | h1 b r ih =>
    intro ps
    rw [skipLoop_cons]
    split
    · exact ⟨rfl, rfl⟩
    · rw [(ih _).1, (ih _).2]; exact bump_last _ _

theorem scan_last (p : Nat → Bool) (data : List UInt8) : ∀ ps : Pos,
    (scanLoop p ps data).2.lastLine = ps.lastLine ∧ (scanLoop p ps data).2.lastColumn = ps.lastColumn := by
  induction data using rune_induction with
  | h0 => intro ps; simp [scanLoop]
  | h1 b r ih =>
    intro ps
    rw [scanLoop_cons]
    split
    · rw [(ih _).1, (ih _).2]; exact bump_last _ _
    · exact bump_last _ _

theorem skip_starts (p : Nat → Bool) (data : List UInt8) : ∀ ps : Pos,
    starts p false ps.line ps.column ((runesOf data).map Prod.fst) =
      starts p false (skipLoop p ps data).2.line (skipLoop p ps data).2.column
        ((runesOf (skipD p data)).map Prod.fst) := by
  induction data using rune_induction with
  | h0 => intro ps; simp [skipLoop, skipD, runesOf_nil, starts]
  | h1 b r ih =>
    intro ps
    rw [skipLoop_cons]
    by_cases h : p (decodeRune (b :: r)).1 = true
    · rw [if_pos h]
      have : skipD p (b :: r) = b :: r := by simp [skipD, skipN_cons, h]
      rw [this]
    · have h' : p (decodeRune (b :: r)).1 = false := by simpa using h
      rw [if_neg h, starts_cons, skipD_cons p b r h', h', if_neg (by simp), List.nil_append, ih]

theorem scan_starts_some (p : Nat → Bool) (data : List UInt8) : ∀ (ps : Pos) (i w : Nat),
    scanF p data = some (i, w) → starts p true ps.line ps.column ((runesOf data).map Prod.fst) =
      starts p false (scanLoop p ps data).2.line (scanLoop p ps data).2.column
        ((runesOf (data.drop (i + w))).map Prod.fst) := by
  induction data using rune_induction with
  | h0 => intro ps i w h; simp [scanF_nil] at h
  | h1 b r ih =>
    intro ps i w h
    rw [scanF_cons] at h
    rw [scanLoop_cons, starts_cons, if_neg (by simp), List.nil_append]
    split at h
    · rename_i ht
      match hq : scanF p ((b :: r).drop (decodeRune (b :: r)).2), h with
      | some (j, w'), h =>
        simp at h
        obtain ⟨rfl, rfl⟩ := h
        rw [if_pos ht, ht, ih _ j w' hq, List.drop_drop, Nat.add_assoc]
    · rename_i ht
      simp only [Option.some.injEq, Prod.mk.injEq] at h
      obtain ⟨rfl, rfl⟩ := h
      have ht' : p (decodeRune (b :: r)).1 = false := by simpa using ht
      rw [if_neg ht, ht', Nat.zero_add]

theorem scan_starts_none (p : Nat → Bool) (data : List UInt8) : ∀ (ps : Pos), scanF p data = none →
    starts p true ps.line ps.column ((runesOf data).map Prod.fst) = [] := by
  induction data using rune_induction with
  | h0 => intro ps _; simp [runesOf_nil, starts]
  | h1 b r ih =>
    intro ps h
    rw [scanF_cons] at h
    rw [starts_cons, if_neg (by simp), List.nil_append]
    split at h
    · rename_i ht
      simp only [Option.map_eq_none_iff] at h
      rw [ht, ih _ h]
    · cases h

/-- The first character of what is left after skipping begins a run. -/
theorem starts_head (p : Nat → Bool) (data : List UInt8) (h0 : skipN p data = 0) (hne : data ≠ []) (ps : Pos) :
    starts p false ps.line ps.column ((runesOf data).map Prod.fst) =
      (ps.line, ps.column) :: starts p true ps.line ps.column ((runesOf data).map Prod.fst) := by
  match data, hne with
  | b :: r, _ =>
    have ht : p (decodeRune (b :: r)).1 = true := by
      rw [skipN_cons] at h0
      split at h0
      · assumption
      · have := decodeRune_pos b r; omega
    rw [starts_cons, starts_cons, if_pos ⟨ht, rfl⟩, if_neg (by simp), List.nil_append]
    rfl

/-- The position remembered for the token (runner/tokenizer.go:116-118). -/
def remember (ps : Pos) : Pos :=
  if ps.lastLine = -1 then { ps with lastLine := ps.line, lastColumn := ps.column } else ps

theorem splitFunc_pos (p : Nat → Bool) (ps : Pos) (data : List UInt8) (atEOF : Bool) :
    splitFunc p ps data atEOF =
      (let ps2 := remember (skipLoop p ps data).2
       let ps3 := (scanLoop p ps2 (skipD p data)).2
       match scanF p (skipD p data) with
       | some (i, w) => (skipN p data + i + w, some ⟨(skipD p data).take i, ps2.lastLine, ps2.lastColumn⟩,
          { ps3 with lastLine := -1, lastColumn := -1 })
       | none => if atEOF && decide (skipN p data < data.length) then
            (data.length, some ⟨skipD p data, ps2.lastLine, ps2.lastColumn⟩,
              { ps3 with lastLine := -1, lastColumn := -1 })
          else (skipN p data, none, ps3)) := by
  have h1 : (skipLoop p ps data).1 = skipN p data := skipLoop_fst p data _ _
  unfold splitFunc
  rcases hsk : skipLoop p ps data with ⟨start, ps1⟩
  rw [hsk] at h1
  simp only at h1
  subst h1
  simp only
  rw [show (if ps1.lastLine = -1 then { ps1 with lastLine := ps1.line, lastColumn := ps1.column } else ps1) = remember ps1
    from rfl]
  rw [show data.drop (skipN p data) = skipD p data from rfl]
  have h2 : (scanLoop p (remember ps1) (skipD p data)).1 = scanF p (skipD p data) := scanLoop_fst p _ _ _
  have h3 := scan_last p (skipD p data) (remember ps1)
  rcases hsc : scanLoop p (remember ps1) (skipD p data) with ⟨found, ps3⟩
  rw [hsc] at h2 h3
  simp only at h2 h3
  rw [← h2, h3.1, h3.2]
  match found with
  | some (i, w) => rfl
  | none => rfl

/-- Asking for more data: the buffer is moved or grown, and one `Read` happens. -/
theorem refill_explicit (lim : Nat) (dual : Bool) (s : Scanner) (hi : Inv lim dual s) (he : s.err = none)
    (hlt : s.win.length < lim) :
    ∃ st bl, s.refill lim = .more (Scanner.read { s with start := st, bufLen := bl }) := by
  obtain ⟨hf, hc, -, -, -⟩ := hi
  have hshift : ∃ st, s.shift = { s with start := st } ∧ (st + s.win.length = s.bufLen → st = 0) := by
    unfold Scanner.shift
    split
    · exact ⟨0, rfl, fun _ => rfl⟩
    · rename_i h
      exact ⟨s.start, rfl, by omega⟩
  obtain ⟨st, hs1, hs3⟩ := hshift
  have hgrow : ∃ st' bl', (s.shift.grow lim) = .ok { s with start := st', bufLen := bl' } := by
    rw [hs1]
    unfold Scanner.grow
    simp only
    split
    · rename_i hfull
      have := hs3 hfull
      split
      · omega
      · exact ⟨_, _, rfl⟩
    · exact ⟨st, s.bufLen, rfl⟩
  obtain ⟨st', bl', hg⟩ := hgrow
  refine ⟨st', bl', ?_⟩
  unfold Scanner.refill
  rw [hg]
  simp [he]

theorem read_pos (s : Scanner) : s.read.pos = s.pos := by
  unfold Scanner.read; simp only; split <;> rfl

/-! ### Everything in one read -/

theorem skipLoop_start (p : Nat → Bool) (data : List UInt8) (h0 : skipN p data = 0) (ps : Pos) :
    (skipLoop p ps data).2 = ps := by
  match data with
  | [] => simp [skipLoop]
  | b :: r =>
    rw [skipLoop_cons]
    rw [skipN_cons] at h0
    split at h0
    · rename_i h; rw [if_pos h]
    · have := decodeRune_pos b r; omega

/-- The last turn: an unterminated token (or nothing), and its position is already remembered. -/
theorem at_end (p : Nat → Bool) (lim fuel : Nat) (s : Scanner) (he : s.err = some .eof)
    (h0 : skipN p s.win = 0) (hf : scanF p s.win = none) (hl : s.pos.lastLine ≠ -1) :
    runScanner p lim (fuel + 2) s =
      some (if s.win = [] then [] else [⟨s.win, s.pos.lastLine, s.pos.lastColumn⟩], some .eof) := by
  have hsd : skipD p s.win = s.win := by simp [skipD, h0]
  have hrem : remember (skipLoop p s.pos s.win).2 = s.pos := by
    rw [skipLoop_start p _ h0]; simp [remember, hl]
  have hturn : ∀ (t : Scanner), t.win = [] → t.err = some .eof → ∃ t', t.turn p lim = .stop t' ∧ t'.err = some .eof := by
    intro t h1 h2
    unfold Scanner.turn
    rw [if_pos (Or.inr (by simp [h2])), splitFunc_pos]
    simp only [h1]
    have : skipD p [] = [] := by simp [skipD]
    rw [this, scanF_nil]
    simp [Scanner.refill, h2]
  by_cases hw : s.win = []
  · obtain ⟨t', h1, h2⟩ := hturn s hw he
    simp [runScanner, h1, h2, hw]
  · have h1 : s.turn p lim = .token ⟨s.win, s.pos.lastLine, s.pos.lastColumn⟩
        { s with win := [], start := s.start + s.win.length,
                 pos := { (scanLoop p s.pos s.win).2 with lastLine := -1, lastColumn := -1 } } := by
      unfold Scanner.turn
      rw [if_pos (Or.inl hw), splitFunc_pos]
      simp only [hsd, hf, hrem, he, Option.isSome_some, Bool.true_and, h0]
      rw [if_pos (by simpa using List.length_pos_iff.mpr hw)]
      simp
    generalize hS : (Scanner.mk [] (s.start + s.win.length) s.bufLen s.err
      { (scanLoop p s.pos s.win).2 with lastLine := -1, lastColumn := -1 } s.rest s.sched) = S at h1
    obtain ⟨t', h2, h3⟩ := hturn S (by rw [← hS]) (by rw [← hS]; exact he)
    rw [runScanner, h1]
    simp only
    rw [runScanner, h2]
    simp [h3, hw]

theorem bump_line (ps : Pos) (r : Nat) : ps.line ≤ (ps.bump r).line := by
  unfold Pos.bump; split <;> simp <;> omega

theorem skip_line (p : Nat → Bool) (data : List UInt8) : ∀ ps : Pos, ps.line ≤ (skipLoop p ps data).2.line := by
  induction data using rune_induction with
  | h0 => intro ps; simp [skipLoop]
  | h1 b r ih =>
    intro ps
    rw [skipLoop_cons]
    split
    · omega
    · have := ih (ps.bump (decodeRune (b :: r)).1)
      have := bump_line ps (decodeRune (b :: r)).1
      omega

theorem scan_line (p : Nat → Bool) (data : List UInt8) : ∀ ps : Pos, ps.line ≤ (scanLoop p ps data).2.line := by
  induction data using rune_induction with
  | h0 => intro ps; simp [scanLoop]
  | h1 b r ih =>
    intro ps
    rw [scanLoop_cons]
    have := bump_line ps (decodeRune (b :: r)).1
    split
    · have := ih (ps.bump (decodeRune (b :: r)).1)
      omega
    · omega

theorem remember_line (ps : Pos) : (remember ps).line = ps.line ∧ (remember ps).column = ps.column := by
  unfold remember; split <;> simp

theorem one_read (p : Nat → Bool) (hp : Good p) (lim : Nat) (hm : 4 ≤ lim) : ∀ (fuel : Nat) (s : Scanner), Inv lim true s →
    s.measure + 1 < fuel → s.rest = [] → s.win.length < lim → s.pos.lastLine = -1 → 1 ≤ s.pos.line →
    ∃ ts err, runScanner p lim fuel s = some (ts, err) ∧
      ts.map (fun t => (t.line, t.column)) =
        starts p false s.pos.line s.pos.column ((runesOf s.win).map Prod.fst) := by
  intro fuel
  induction fuel with
  | zero => intro s _ h; omega
  | succ fuel ih =>
    intro s hi hfu hr hlt hll hl1
    have hsim := turn_sim p hp lim hm true s hi
    by_cases hcond : s.win ≠ [] ∨ s.err ≠ none
    · have hrem : remember (skipLoop p s.pos s.win).2 =
          { (skipLoop p s.pos s.win).2 with
            lastLine := (skipLoop p s.pos s.win).2.line, lastColumn := (skipLoop p s.pos s.win).2.column } := by
        unfold remember
        rw [if_pos (by rw [(skip_last p s.win s.pos).1, hll])]
      have hskl := skip_line p s.win s.pos
      have hst := skip_starts p s.win s.pos
      have h00 : skipN p (skipD p s.win) = 0 := skipN_drop_skipN p s.win
      have hdl : (skipD p s.win).length = s.win.length - skipN p s.win := by simp [skipD]
      generalize hps1 : (skipLoop p s.pos s.win).2 = ps1 at *
      have htu : s.turn p lim = (match scanF p (skipD p s.win) with
        | some (i, w) => .token ⟨(skipD p s.win).take i, ps1.line, ps1.column⟩
            { s with win := s.win.drop (skipN p s.win + i + w), start := s.start + (skipN p s.win + i + w),
                     pos := { (scanLoop p (remember ps1) (skipD p s.win)).2 with lastLine := -1, lastColumn := -1 } }
        | none => if s.err.isSome && decide (skipN p s.win < s.win.length) then
            .token ⟨skipD p s.win, ps1.line, ps1.column⟩
            { s with win := s.win.drop s.win.length, start := s.start + s.win.length,
                     pos := { (scanLoop p (remember ps1) (skipD p s.win)).2 with lastLine := -1, lastColumn := -1 } }
          else ({ s with win := skipD p s.win, start := s.start + skipN p s.win,
                         pos := (scanLoop p (remember ps1) (skipD p s.win)).2 } : Scanner).refill lim) := by
        unfold Scanner.turn
        rw [if_pos hcond, splitFunc_pos, hps1]
        simp only
        rw [hrem]
        cases hsf : scanF p (skipD p s.win) with
        | some iw => rfl
        | none =>
          simp only
          by_cases hb : (s.err.isSome && decide (skipN p s.win < s.win.length)) = true
          · simp only [hb, if_true]
          · simp only [hb]; rfl
      have hscl := scan_line p (skipD p s.win) (remember ps1)
      rw [(remember_line ps1).1] at hscl
      cases hsf : scanF p (skipD p s.win) with
      | some iw =>
        obtain ⟨i, w⟩ := iw
        rw [hsf] at htu
        simp only at htu
        have hne : skipD p s.win ≠ [] := by intro hn; rw [hn, scanF_nil] at hsf; cases hsf
        rcases hsim with ⟨s', h1, -⟩ | ⟨s', h1, -⟩ | ⟨t, s', h1, h2, h3, -⟩
        · rw [htu] at h1; cases h1
        · rw [htu] at h1; cases h1
        · rw [htu] at h1
          obtain ⟨rfl, rfl⟩ := Turn.token.inj h1
          obtain ⟨ts, err, h4, h5⟩ := ih _ h2 (by omega) hr (by simp only [List.length_drop]; omega) rfl
            (by simp only; omega)
          refine ⟨_ :: ts, err, by rw [runScanner, htu]; simp only; rw [h4]; rfl, ?_⟩
          rw [List.map_cons, h5, hst, starts_head p _ h00 hne]
          have hsc := scan_starts_some p (skipD p s.win) (remember ps1) i w hsf
          rw [(remember_line ps1).1, (remember_line ps1).2] at hsc
          rw [hsc]
          simp only [skipD, List.drop_drop, Nat.add_assoc]
      | none =>
        rw [hsf] at htu
        simp only at htu
        have hsc := scan_starts_none p (skipD p s.win) ps1 hsf
        by_cases hb : (s.err.isSome && decide (skipN p s.win < s.win.length)) = true
        · rw [if_pos hb] at htu
          simp only [Bool.and_eq_true, decide_eq_true_eq] at hb
          have hne : skipD p s.win ≠ [] := by
            intro hn; rw [hn] at hdl; simp at hdl; omega
          rcases hsim with ⟨s', h1, -⟩ | ⟨s', h1, -⟩ | ⟨t, s', h1, h2, h3, -⟩
          · rw [htu] at h1; cases h1
          · rw [htu] at h1; cases h1
          · rw [htu] at h1
            obtain ⟨rfl, rfl⟩ := Turn.token.inj h1
            obtain ⟨ts, err, h4, h5⟩ := ih _ h2 (by omega) hr (by simp; omega) rfl (by simp only; omega)
            refine ⟨_ :: ts, err, by rw [runScanner, htu]; simp only; rw [h4]; rfl, ?_⟩
            rw [List.map_cons, h5, hst, starts_head p _ h00 hne, hsc]
            simp [runesOf_nil, starts]
        · rw [if_neg hb] at htu
          by_cases he : s.err = none
          · generalize hs' : (Scanner.mk (skipD p s.win) (s.start + skipN p s.win) s.bufLen s.err
              (scanLoop p (remember ps1) (skipD p s.win)).2 s.rest s.sched) = s' at htu
            have hi' : Inv lim true s' := by
              subst hs'
              refine ⟨?_, hi.cap, by simp [he], by simp [he], hi.sched⟩
              have := hi.fits
              have := skipN_le p s.win
              simp only [hdl]; omega
            obtain ⟨st, bl, h1⟩ := refill_explicit lim true s' hi' (by subst hs'; exact he)
              (by subst hs'; simp only; omega)
            generalize hs2 : (Scanner.mk s'.win st bl s'.err s'.pos s'.rest s'.sched).read = s2 at h1
            have hs2' : s2.win = skipD p s.win ∧ s2.err = some .eof ∧
                s2.pos = (scanLoop p (remember ps1) (skipD p s.win)).2 := by
              subst hs2 hs'
              simp [Scanner.read, hr]
            obtain ⟨e1, e2, e3⟩ := hs2'
            have hlast := scan_last p (skipD p s.win) (remember ps1)
            have hmeas : 1 ≤ s.measure := by simp [Scanner.measure, he]
            obtain ⟨f, rfl⟩ : ∃ f, fuel = f + 2 := ⟨fuel - 2, by omega⟩
            have hend := at_end p lim f s2 e2 (by rw [e1]; exact h00) (by rw [e1]; exact hsf)
              (by rw [e3, hlast.1, hrem]; simp only; omega)
            refine ⟨_, _, by rw [runScanner, htu, h1]; simp only; rw [hend], ?_⟩
            rw [e1, e3, hlast.1, hlast.2, hrem, hst]
            by_cases hn : skipD p s.win = []
            · simp [hn, runesOf_nil, starts]
            · rw [if_neg hn, starts_head p _ h00 hn, hsc]
              rfl
          · have hle : skipD p s.win = [] := by
              have hsome : s.err.isSome = true := by
                cases h : s.err with
                | none => exact absurd h he
                | some e => rfl
              rw [hsome] at hb
              simp at hb
              rw [← List.length_eq_zero_iff, hdl]; omega
            have hst2 : ∃ s', s.turn p lim = .stop s' := by
              rw [htu]
              unfold Scanner.refill
              cases h : s.err with
              | none => exact absurd h he
              | some e => exact ⟨_, rfl⟩
            obtain ⟨s', h1⟩ := hst2
            refine ⟨[], s'.err, by rw [runScanner, h1], ?_⟩
            rw [hst, hle]
            simp [runesOf_nil, starts]
    · have hw : s.win = [] := by
        cases h : s.win with
        | nil => rfl
        | cons a l => exact absurd (Or.inl (by simp [h])) hcond
      have he : s.err = none := by
        cases h : s.err with
        | none => rfl
        | some e => exact absurd (Or.inr (by simp [h])) hcond
      have htu : s.turn p lim = s.refill lim := by
        unfold Scanner.turn; rw [if_neg hcond]
      obtain ⟨st, bl, h1⟩ := refill_explicit lim true s hi he hlt
      rcases hsim with ⟨s', h2, -⟩ | ⟨s', h2, h3, h4, -⟩ | ⟨t, s', h2, -⟩
      · rw [htu, h1] at h2; cases h2
      · rw [htu, h1] at h2
        obtain rfl := Turn.more.inj h2
        have hwin : (Scanner.mk s.win st bl s.err s.pos s.rest s.sched).read.win = s.win := by
          simp [Scanner.read, hr]
        have hrest : (Scanner.mk s.win st bl s.err s.pos s.rest s.sched).read.rest = [] := by
          simp [Scanner.read, hr]
        obtain ⟨ts, err, h5, h6⟩ := ih _ h3 (by omega) hrest (by rw [hwin]; exact hlt) (by rw [read_pos]; exact hll)
          (by rw [read_pos]; exact hl1)
        refine ⟨ts, err, by rw [runScanner, htu, h1]; exact h5, ?_⟩
        rw [h6, read_pos, hwin]
      · rw [htu, h1] at h2; cases h2

theorem runes_flat (l : List UInt8) : (runesOf l).flatMap Prod.snd = l := by
  induction l using rune_induction with
  | h0 => simp [runesOf_nil]
  | h1 b r ih => rw [runesOf_cons, List.flatMap_cons, ih]; simp

theorem run_length {q : Nat × List UInt8 → Bool} {l : List (Nat × List UInt8)} {rs} (h : IsRuns q l rs) :
    ∀ r ∈ rs, (r.flatMap Prod.snd).length ≤ (l.flatMap Prod.snd).length := by
  induction h with
  | done => simp
  | run sep r rest rs a1 a2 a3 a4 a5 ih =>
    intro x hx
    simp only [List.flatMap_append, List.length_append]
    rcases List.mem_cons.mp hx with rfl | hx
    · omega
    · have := ih x hx; omega

theorem token_length {p : Nat → Bool} {stream : List UInt8} {toks} (h : IsTokenization p stream toks) :
    ∀ t ∈ toks, t.length ≤ stream.length := by
  obtain ⟨rs, h1, rfl⟩ := h
  intro t ht
  obtain ⟨r, hr, rfl⟩ := List.mem_map.mp ht
  have := run_length h1 r hr
  rwa [runes_flat] at this

theorem read_eq (s : Scanner) (n : Nat) (hne : s.rest ≠ [])
    (hn : max 1 (min (s.sched.headD { n := s.bufLen - (s.start + s.win.length) }).n
      (min (s.bufLen - (s.start + s.win.length)) s.rest.length)) = n) :
    s.read = { s with
      win := s.win ++ s.rest.take n
      rest := s.rest.drop n
      err := if (s.sched.headD { n := s.bufLen - (s.start + s.win.length) }).eofWithData && decide (n = s.rest.length)
        then some .eof else none
      sched := s.sched.tail } := by
  subst hn
  unfold Scanner.read
  simp only
  split
  · rename_i h; exact absurd h hne
  · rfl

/-- **C150** If the stream is at most 4096 bytes long and the first read delivers all of it, every token comes with its
line and column. -/
theorem C150_one_read_partial (p : Nat → Bool) (hp : UsedScanFunc p) (stream : List UInt8) (reads : List ReadChoice)
    (hlen : stream.length ≤ 4096) (hread : ∀ c, reads.head? = some c → stream.length ≤ c.n) :
    ∃ toks, tokenize p 4194304 stream reads = some (toks, false) ∧
      toks.map (fun t => (t.line, t.column)) = truePositions p stream ∧
      IsTokenization p stream (toks.map Token.text) := by
  obtain ⟨tk, htk⟩ := isTokenization_exists p stream
  have hout := C02_tokens_are_maximal_runs p hp 4194304 (by omega) stream reads tk htk
    (fun t ht => by have := token_length htk t ht; omega)
  have hpos : ∃ ts err, runScanner p 4194304 (2 * stream.length + 3) (newTokenizer stream reads) = some (ts, err) ∧
      ts.map (fun t => (t.line, t.column)) = truePositions p stream := by
    have hi : Inv 4194304 true (newTokenizer stream reads) :=
      ⟨by simp [newTokenizer], by simp [newTokenizer], by simp [newTokenizer], by simp [newTokenizer], by simp⟩
    cases hstr : stream with
    | nil =>
      subst hstr
      obtain ⟨ts, err, h1, h2⟩ := one_read p hp.good 4194304 (by omega) (2 * 0 + 3) (newTokenizer [] reads) hi
        (by simp [newTokenizer, Scanner.measure]) rfl (by simp [newTokenizer]) rfl (by simp [newTokenizer])
      exact ⟨ts, err, h1, h2⟩
    | cons a l =>
      rw [← hstr]
      generalize hE : (if (reads.headD { n := 4096 }).eofWithData then some ScanErr.eof else none) = E
      have htu : (newTokenizer stream reads).turn p 4194304 =
          .more (Scanner.mk stream 0 4096 E {} [] reads.tail) := by
        have hn : max 1 (min (reads.headD { n := 4096 }).n (min 4096 stream.length)) = stream.length := by
          have h1 : 1 ≤ stream.length := by rw [hstr]; simp
          have h2 : stream.length ≤ (reads.headD { n := 4096 }).n := by
            cases reads with
            | nil => simpa using hlen
            | cons c cs => exact hread c rfl
          omega
        unfold Scanner.turn
        rw [if_neg (by simp [newTokenizer])]
        have hg : (newTokenizer stream reads).shift.grow 4194304 = .ok (Scanner.mk [] 0 4096 none {} stream reads) := by
          simp [newTokenizer, Scanner.shift, Scanner.grow]
        unfold Scanner.refill
        rw [hg]
        simp only [newTokenizer]
        rw [read_eq _ stream.length (by rw [hstr]; simp) (by simpa using hn), ← hE]
        simp
      have hi2 : Inv 4194304 true (Scanner.mk stream 0 4096 E {} [] reads.tail) :=
        ⟨by simpa using hlen, by simp, by simp only; rw [← hE]; split <;> simp, by simp, by simp⟩
      have hlpos : 1 ≤ stream.length := by rw [hstr]; simp
      obtain ⟨ts, err, h1, h2⟩ := one_read p hp.good 4194304 (by omega) (2 * stream.length + 2) _ hi2
        (by
          simp only [Scanner.measure, List.length_nil]
          have hle : ∀ (P : Prop) [Decidable P], (if P then 1 else 0 : Nat) ≤ 1 := by
            intro P _; split <;> omega
          have := hle (E = none)
          omega) rfl (by simp only; omega) rfl (by simp)
      exact ⟨ts, err, by rw [show 2 * stream.length + 3 = (2 * stream.length + 2) + 1 from rfl, runScanner, htu]; exact h1,
        h2⟩
  obtain ⟨ts, err, h1, h2⟩ := hpos
  simp only [outcome, tokenize, h1, Option.map_some, Option.some.injEq, Prod.mk.injEq] at hout
  refine ⟨ts, by simp only [tokenize, h1, Option.map_some, hout.2], h2, ?_⟩
  rw [hout.1]; exact htk

/-! ### Any reads: the lines -/

theorem decode_nl (b : UInt8) (r : List UInt8) :
    ((b :: r).take (decodeRune (b :: r)).2).count 0x0A = if (decodeRune (b :: r)).1 = 0x0A then 1 else 0 := by
  have hb : ∀ c : UInt8, 0x80 ≤ c.toNat → c ≠ 0x0A := by
    intro c hc h; subst h; simp at hc
  rcases decode_cases b r with ⟨h, h1⟩ | ⟨h, h1⟩ | ⟨v, h, h1, h2, h3, h4, h5⟩
  · rw [h]
    simp only [List.take_succ_cons, List.take_zero, List.count_singleton]
    by_cases hx : b = 0x0A
    · subst hx; rfl
    · have : b.toNat ≠ 0x0A := fun hn => hx (UInt8.toNat_inj.mp hn)
      simp [hx, this]
  · rw [h]
    have := hb b h1
    simp [this, runeError]
  · rw [h]
    simp only
    rw [if_neg (by omega), List.count_eq_zero]
    intro hm
    obtain ⟨n, hn⟩ : ∃ n, seqLen b = n + 1 := ⟨seqLen b - 1, by omega⟩
    rw [hn, List.take_succ_cons] at hm
    rcases List.mem_cons.mp hm with hm | hm
    · exact hb b h2 hm.symm
    · rw [hn] at h5
      exact hb _ (h5 _ hm).1 rfl

theorem bump_nl (ps : Pos) (b : UInt8) (r : List UInt8) :
    (ps.bump (decodeRune (b :: r)).1).line + (((b :: r).drop (decodeRune (b :: r)).2).count 0x0A : Nat) =
      ps.line + ((b :: r).count 0x0A : Nat) := by
  have h1 : (b :: r).count 0x0A = ((b :: r).take (decodeRune (b :: r)).2).count 0x0A +
      ((b :: r).drop (decodeRune (b :: r)).2).count 0x0A := by
    rw [← List.count_append, List.take_append_drop]
  rw [h1, decode_nl]
  unfold Pos.bump
  split <;> simp <;> omega

theorem skip_nl (p : Nat → Bool) (data : List UInt8) : ∀ ps : Pos,
    (skipLoop p ps data).2.line + ((skipD p data).count 0x0A : Nat) = ps.line + (data.count 0x0A : Nat) := by
  induction data using rune_induction with
  | h0 => intro ps; simp [skipLoop, skipD]
  | h1 b r ih =>
    intro ps
    rw [skipLoop_cons]
    by_cases h : p (decodeRune (b :: r)).1 = true
    · rw [if_pos h]
      have : skipD p (b :: r) = b :: r := by simp [skipD, skipN_cons, h]
      rw [this]
    · rw [if_neg h, skipD_cons p b r (by simpa using h), ih, bump_nl]

theorem scan_nl_some (p : Nat → Bool) (data : List UInt8) : ∀ (ps : Pos) (i w : Nat), scanF p data = some (i, w) →
    (scanLoop p ps data).2.line + ((data.drop (i + w)).count 0x0A : Nat) = ps.line + (data.count 0x0A : Nat) := by
  induction data using rune_induction with
  | h0 => intro ps i w h; simp [scanF_nil] at h
  | h1 b r ih =>
    intro ps i w h
    rw [scanF_cons] at h
    rw [scanLoop_cons]
    split at h
    · rename_i ht
      match hq : scanF p ((b :: r).drop (decodeRune (b :: r)).2), h with
      | some (j, w'), h =>
        simp at h
        obtain ⟨rfl, rfl⟩ := h
        rw [if_pos ht, Nat.add_assoc, ← List.drop_drop, ih _ j w' hq, bump_nl]
    · rename_i ht
      simp only [Option.some.injEq, Prod.mk.injEq] at h
      obtain ⟨rfl, rfl⟩ := h
      rw [if_neg ht, Nat.zero_add, bump_nl]

theorem scan_nl_none (p : Nat → Bool) (hnl : p 0x0A = false) (data : List UInt8) : ∀ (ps : Pos), scanF p data = none →
    (scanLoop p ps data).2.line = ps.line := by
  induction data using rune_induction with
  | h0 => intro ps _; simp [scanLoop]
  | h1 b r ih =>
    intro ps h
    rw [scanF_cons] at h
    rw [scanLoop_cons]
    split at h
    · rename_i ht
      simp only [Option.map_eq_none_iff] at h
      rw [if_pos ht, ih _ h]
      unfold Pos.bump
      rw [if_neg (by intro hx; rw [hx, hnl] at ht; cases ht)]
    · cases h

/-- The number of newlines from each token to the end of the stream. -/
def newlinesFrom (p : Nat → Bool) (R : List UInt8) : List Nat :=
  match skipD p R with
  | [] => []
  | _ :: _ =>
    match h : scanF p (skipD p R) with
    | some (i, w) => (skipD p R).count 0x0A :: newlinesFrom p ((skipD p R).drop (i + w))
    | none => [(skipD p R).count 0x0A]
termination_by R.length
decreasing_by
  have h1 := scanF_bound _ _ _ _ h
  have h2 := skipD_length_le p R
  simp only [List.length_drop]
  omega

theorem newlinesFrom_nil (p) (R : List UInt8) (h : skipD p R = []) : newlinesFrom p R = [] := by
  rw [newlinesFrom, h]

theorem newlinesFrom_some (p) (R : List UInt8) (i w : Nat) (h : scanF p (skipD p R) = some (i, w)) :
    newlinesFrom p R = (skipD p R).count 0x0A :: newlinesFrom p ((skipD p R).drop (i + w)) := by
  have hne : skipD p R ≠ [] := by intro hn; rw [hn, scanF_nil] at h; cases h
  rw [newlinesFrom]
  split
  · contradiction
  · split
    · rename_i i' w' h'
      rw [h] at h'
      obtain ⟨rfl, rfl⟩ := Prod.mk.inj (Option.some.inj h')
      rfl
    · rename_i h'; rw [h] at h'; cases h'

theorem newlinesFrom_none (p) (R : List UInt8) (h : scanF p (skipD p R) = none) (hne : skipD p R ≠ []) :
    newlinesFrom p R = [(skipD p R).count 0x0A] := by
  rw [newlinesFrom]
  split
  · contradiction
  · split
    · rename_i i' w' h'; rw [h] at h'; cases h'
    · rfl

theorem newlinesFrom_congr (p) (R R' : List UInt8) (h : skipD p R = skipD p R') :
    newlinesFrom p R = newlinesFrom p R' := by
  by_cases hne : skipD p R = []
  · rw [newlinesFrom_nil p R hne, newlinesFrom_nil p R' (by rw [← h]; exact hne)]
  · cases hf : scanF p (skipD p R) with
    | none => rw [newlinesFrom_none p R hf hne, newlinesFrom_none p R' (by rw [← h]; exact hf) (by rw [← h]; exact hne), h]
    | some iw => rw [newlinesFrom_some p R _ _ hf, newlinesFrom_some p R' _ _ (by rw [← h]; exact hf), h]

/-- The lines of `starts`, counted from the end. -/
theorem starts_lines (p : Nat → Bool) (R : List UInt8) : ∀ (ps : Pos),
    (starts p false ps.line ps.column ((runesOf R).map Prod.fst)).map Prod.fst =
      (newlinesFrom p R).map fun c : Nat => ps.line + (R.count 0x0A : Nat) - c := by
  generalize hn : R.length = n
  induction n using Nat.strongRecOn generalizing R with
  | _ n ih =>
    intro ps
    have hsk := skip_nl p R ps
    have h0 : skipN p (skipD p R) = 0 := skipN_drop_skipN p R
    rw [skip_starts]
    generalize hps1 : (skipLoop p ps R).2 = ps1 at *
    rw [← hsk]
    by_cases hne : skipD p R = []
    · rw [newlinesFrom_nil p R hne, hne]; simp [runesOf_nil, starts]
    · cases hf : scanF p (skipD p R) with
      | none =>
        rw [newlinesFrom_none p R hf hne, starts_head p _ h0 hne, scan_starts_none p _ _ hf]
        simp
      | some iw =>
        obtain ⟨i, w⟩ := iw
        have hb := scanF_bound _ _ _ _ hf
        have hl := skipD_length_le p R
        rw [newlinesFrom_some p R i w hf, starts_head p _ h0 hne, scan_starts_some p _ ps1 i w hf, List.map_cons,
          List.map_cons, ih _ (by simp only [List.length_drop]; omega) _ rfl, scan_nl_some p _ ps1 i w hf]
        simp

/-- What is shown of the reported lines `ls`, where `cs` counts the newlines from each token on and `T` is the number
of lines: each is at most the true one and at least the true one of the token before (`lo`). -/
inductive Bounds (T : Int) : Int → List Int → List Nat → Prop
  | stop (lo : Int) (cs : List Nat) : Bounds T lo [] cs
  | cons {lo l : Int} {c : Nat} {ls : List Int} {cs : List Nat} :
      lo ≤ l → l ≤ T - c → Bounds T (T - c) ls cs → Bounds T lo (l :: ls) (c :: cs)

theorem Bounds.weaken {T lo lo' : Int} {ls cs} (h : Bounds T lo ls cs) (hle : lo' ≤ lo) : Bounds T lo' ls cs := by
  cases h with
  | stop => exact .stop _ _
  | cons h1 h2 h3 => exact .cons (by omega) h2 h3

theorem remember_bounds (ps : Pos) (lo : Int) (h2 : lo ≤ ps.line)
    (h3 : ps.lastLine = -1 ∨ lo ≤ ps.lastLine ∧ ps.lastLine ≤ ps.line) :
    lo ≤ (remember ps).lastLine ∧ (remember ps).lastLine ≤ ps.line := by
  unfold remember
  split
  · exact ⟨h2, Int.le_refl _⟩
  · rcases h3 with h3 | h3
    · contradiction
    · exact h3

theorem read_bytes (s : Scanner) : s.read.win ++ s.read.rest = s.win ++ s.rest := by
  unfold Scanner.read
  simp only
  split
  · rename_i h; simp
  · rename_i h; simp

theorem lines_bound (p : Nat → Bool) (hp : Good p) (hnl : p 0x0A = false) (lim : Nat) (hm : 4 ≤ lim) :
    ∀ (fuel : Nat) (s : Scanner) (T lo : Int), Inv lim true s →
    s.pos.line + ((s.win ++ s.rest).count 0x0A : Nat) = T → 1 ≤ lo → lo ≤ s.pos.line →
    (s.pos.lastLine = -1 ∨ lo ≤ s.pos.lastLine ∧ s.pos.lastLine ≤ s.pos.line) →
    ∀ ts err, runScanner p lim fuel s = some (ts, err) →
      Bounds T lo (ts.map Token.line) (newlinesFrom p (s.win ++ s.rest)) := by
  intro fuel
  induction fuel with
  | zero => intro s T lo _ _ _ _ _ ts err h; simp [runScanner] at h
  | succ fuel ih =>
    intro s T lo hi hT h1lo hlo hll ts err hrun
    have hsim := turn_sim p hp lim hm true s hi
    by_cases hcond : s.win ≠ [] ∨ s.err ≠ none
    · have hskl := skip_line p s.win s.pos
      have hskn := skip_nl p s.win s.pos
      have h00 : skipN p (skipD p s.win) = 0 := skipN_drop_skipN p s.win
      have hdl : (skipD p s.win).length = s.win.length - skipN p s.win := by simp [skipD]
      have hlast := skip_last p s.win s.pos
      have hcongr : newlinesFrom p (s.win ++ s.rest) = newlinesFrom p (skipD p s.win ++ s.rest) :=
        newlinesFrom_congr p _ _ (skipD_window p hp _ _)
      generalize hps1 : (skipLoop p s.pos s.win).2 = ps1 at *
      have hb1 := remember_bounds ps1 lo (by omega) (by rw [hlast.1]; omega)
      have hscl := scan_line p (skipD p s.win) (remember ps1)
      have hscla := scan_last p (skipD p s.win) (remember ps1)
      rw [(remember_line ps1).1] at hscl
      have hTs : ps1.line + ((skipD p s.win ++ s.rest).count 0x0A : Nat) = T := by
        rw [List.count_append] at hT ⊢
        omega
      have htu : s.turn p lim = (match scanF p (skipD p s.win) with
        | some (i, w) => .token ⟨(skipD p s.win).take i, (remember ps1).lastLine, (remember ps1).lastColumn⟩
            { s with win := s.win.drop (skipN p s.win + i + w), start := s.start + (skipN p s.win + i + w),
                     pos := { (scanLoop p (remember ps1) (skipD p s.win)).2 with lastLine := -1, lastColumn := -1 } }
        | none => if s.err.isSome && decide (skipN p s.win < s.win.length) then
            .token ⟨skipD p s.win, (remember ps1).lastLine, (remember ps1).lastColumn⟩
            { s with win := s.win.drop s.win.length, start := s.start + s.win.length,
                     pos := { (scanLoop p (remember ps1) (skipD p s.win)).2 with lastLine := -1, lastColumn := -1 } }
          else ({ s with win := skipD p s.win, start := s.start + skipN p s.win,
                         pos := (scanLoop p (remember ps1) (skipD p s.win)).2 } : Scanner).refill lim) := by
        unfold Scanner.turn
        rw [if_pos hcond, splitFunc_pos, hps1]
        simp only
        cases hsf : scanF p (skipD p s.win) with
        | some iw => rfl
        | none =>
          simp only
          by_cases hb : (s.err.isSome && decide (skipN p s.win < s.win.length)) = true
          · simp only [hb, if_true]
          · simp only [hb]; rfl
      cases hsf : scanF p (skipD p s.win) with
      | some iw =>
        obtain ⟨i, w⟩ := iw
        rw [hsf] at htu
        simp only at htu
        obtain ⟨hz, w', hf', hneed, hsame⟩ := scan_found p hp (skipD p s.win) s.rest i w h00 hsf
        have hbd := scanF_bound p _ i w hsf
        have hdd : skipD p (skipD p s.win ++ s.rest) = skipD p s.win ++ s.rest := by
          conv => lhs; unfold skipD
          rw [show skipN p (List.drop (skipN p s.win) s.win ++ s.rest) = 0 from hz]; simp [skipD]
        have hdrop2 : (skipD p s.win ++ s.rest).drop (i + w)
            = s.win.drop (skipN p s.win + i + w) ++ s.rest := by
          rw [List.drop_append_of_le_length (by omega)]
          simp only [skipD, List.drop_drop]
          congr 2; omega
        rcases hsim with ⟨s', h1, -⟩ | ⟨s', h1, -⟩ | ⟨t, s', h1, h2, h3, -⟩
        · rw [htu] at h1; cases h1
        · rw [htu] at h1; cases h1
        · rw [htu] at h1
          obtain ⟨rfl, rfl⟩ := Turn.token.inj h1
          rw [runScanner, htu] at hrun
          simp only [Option.map_eq_some_iff] at hrun
          obtain ⟨⟨ts', err'⟩, hrun', heq⟩ := hrun
          obtain ⟨rfl, rfl⟩ := Prod.mk.inj heq
          have hnls := scan_nl_some p (skipD p s.win) (remember ps1) i w hsf
          rw [(remember_line ps1).1] at hnls
          have hbound := ih _ T ps1.line h2 (by
            simp only
            rw [← hdrop2, List.drop_append_of_le_length (by omega), List.count_append]
            rw [List.count_append] at hTs
            omega) (by omega) (by simp only; omega) (Or.inl rfl) _ _ hrun'
          rw [hcongr, newlinesFrom_some p _ i w' (by rw [hdd]; exact hf'), hdd, newlinesFrom_congr p _ _ hsame, hdrop2,
            List.map_cons]
          exact .cons hb1.1 (by simp only; omega) (hbound.weaken (by omega))
      | none =>
        rw [hsf] at htu
        simp only at htu
        have hnln := scan_nl_none p hnl (skipD p s.win) (remember ps1) hsf
        rw [(remember_line ps1).1] at hnln
        by_cases hb : (s.err.isSome && decide (skipN p s.win < s.win.length)) = true
        · rw [if_pos hb] at htu
          simp only [Bool.and_eq_true, decide_eq_true_eq] at hb
          have hne : skipD p s.win ≠ [] := by
            intro hn; rw [hn] at hdl; simp at hdl; omega
          have hrest : s.rest = [] := by
            cases he : s.err with
            | none => rw [he] at hb; simp at hb
            | some e =>
              cases e with
              | eof => exact (hi.atEOF he).1
              | tooLong => exact absurd he hi.noTooLong
          rcases hsim with ⟨s', h1, -⟩ | ⟨s', h1, -⟩ | ⟨t, s', h1, h2, h3, -⟩
          · rw [htu] at h1; cases h1
          · rw [htu] at h1; cases h1
          · rw [htu] at h1
            obtain ⟨rfl, rfl⟩ := Turn.token.inj h1
            rw [runScanner, htu] at hrun
            simp only [Option.map_eq_some_iff] at hrun
            obtain ⟨⟨ts', err'⟩, hrun', heq⟩ := hrun
            obtain ⟨rfl, rfl⟩ := Prod.mk.inj heq
            have hbound := ih _ (ps1.line) ps1.line h2 (by
              simp [hrest, hnln]) (by omega) (by simp only; omega) (Or.inl rfl) _ _ hrun'
            have hnone : newlinesFrom p [] = [] := newlinesFrom_nil p [] (by simp [skipD])
            simp only [hrest, List.drop_length, List.append_nil, hnone] at hbound
            have hts : ts'.map Token.line = [] := by
              generalize ts'.map Token.line = q at hbound
              cases hbound; rfl
            have hdd : skipD p (skipD p s.win) = skipD p s.win := by
              conv => lhs; unfold skipD
              rw [show skipN p (List.drop (skipN p s.win) s.win) = 0 from h00]; simp [skipD]
            rw [hcongr, List.map_cons, hts, hrest, List.append_nil, newlinesFrom_none p _ (by rw [hdd]; exact hsf)
              (by rw [hdd]; exact hne), hdd]
            rw [hrest, List.append_nil] at hTs
            exact .cons hb1.1 (by simp only; omega) (.stop _ _)
        · rw [if_neg hb] at htu
          by_cases he : s.err = none
          · generalize hs' : (Scanner.mk (skipD p s.win) (s.start + skipN p s.win) s.bufLen s.err
              (scanLoop p (remember ps1) (skipD p s.win)).2 s.rest s.sched) = s' at htu
            have hi' : Inv lim true s' := by
              subst hs'
              refine ⟨?_, hi.cap, by simp [he], by simp [he], hi.sched⟩
              have := hi.fits
              have := skipN_le p s.win
              simp only [hdl]; omega
            by_cases hlt : s'.win.length < lim
            · obtain ⟨st, bl, h1⟩ := refill_explicit lim true s' hi' (by subst hs'; exact he) hlt
              rcases hsim with ⟨s2, h2, -⟩ | ⟨s2, h2, h3, h4, -⟩ | ⟨t, s2, h2, -⟩
              · rw [htu, h1] at h2; cases h2
              · rw [htu, h1] at h2
                obtain rfl := Turn.more.inj h2
                rw [runScanner, htu, h1] at hrun
                simp only at hrun
                have hbytes : (Scanner.mk s'.win st bl s'.err s'.pos s'.rest s'.sched).read.win ++
                    (Scanner.mk s'.win st bl s'.err s'.pos s'.rest s'.sched).read.rest = skipD p s.win ++ s.rest := by
                  rw [read_bytes]; subst hs'; rfl
                have hpos : (Scanner.mk s'.win st bl s'.err s'.pos s'.rest s'.sched).read.pos =
                    (scanLoop p (remember ps1) (skipD p s.win)).2 := by
                  rw [read_pos]; subst hs'; rfl
                have hbound := ih _ T lo h3 (by rw [hbytes, hpos, hnln]; exact hTs) h1lo (by rw [hpos]; omega)
                  (by rw [hpos, hscla.1, hnln]; exact Or.inr hb1) _ _ hrun
                rw [hbytes] at hbound
                rw [hcongr]; exact hbound
              · rw [htu, h1] at h2; cases h2
            · rcases hsim with ⟨s2, h2, -⟩ | ⟨s2, h2, h3, h4, h5⟩ | ⟨t, s2, h2, -⟩
              · rw [runScanner, h2] at hrun
                simp only [Option.some.injEq, Prod.mk.injEq] at hrun
                rw [← hrun.1]; exact .stop _ _
              · exfalso
                have hw' : s'.win = skipD p s.win := by subst hs'; rfl
                have hst : s'.start = 0 := by
                  have h1 := hi'.fits; have h2 := hi'.cap; omega
                have hbl : s'.bufLen = lim := by
                  have h1 := hi'.fits; have h2 := hi'.cap; omega
                have hlen : s'.win.length = lim := by
                  have h1 := hi'.fits; have h2 := hi'.cap; omega
                have he' : s'.err = none := by subst hs'; exact he
                have hrf : s'.refill lim = .stop { s' with err := some .tooLong } := by
                  simp [Scanner.refill, he', Scanner.shift, Scanner.grow, hst, hbl, hlen]
                rw [htu, hrf] at h2; cases h2
              · exfalso
                rw [htu] at h2
                have he' : s'.err = none := by subst hs'; exact he
                unfold Scanner.refill at h2
                rw [he'] at h2
                simp only at h2
                split at h2 <;> cases h2
          · have hst2 : ∃ s', s.turn p lim = .stop s' := by
              rw [htu]
              unfold Scanner.refill
              cases h : s.err with
              | none => exact absurd h he
              | some e => exact ⟨_, rfl⟩
            obtain ⟨s', h1⟩ := hst2
            rw [runScanner, h1] at hrun
            simp only [Option.some.injEq, Prod.mk.injEq] at hrun
            rw [← hrun.1]; exact .stop _ _
    · have hw : s.win = [] := by
        cases h : s.win with
        | nil => rfl
        | cons a l => exact absurd (Or.inl (by simp [h])) hcond
      have he : s.err = none := by
        cases h : s.err with
        | none => rfl
        | some e => exact absurd (Or.inr (by simp [h])) hcond
      have htu : s.turn p lim = s.refill lim := by
        unfold Scanner.turn; rw [if_neg hcond]
      obtain ⟨st, bl, h1⟩ := refill_explicit lim true s hi he (by rw [hw]; simp; omega)
      rcases hsim with ⟨s', h2, -⟩ | ⟨s', h2, h3, h4, -⟩ | ⟨t, s', h2, -⟩
      · rw [htu, h1] at h2; cases h2
      · rw [htu, h1] at h2
        obtain rfl := Turn.more.inj h2
        rw [runScanner, htu, h1] at hrun
        simp only at hrun
        have hbytes := read_bytes (Scanner.mk s.win st bl s.err s.pos s.rest s.sched)
        have := ih _ T lo h3 (by rw [hbytes, read_pos]; exact hT) h1lo (by rw [read_pos]; exact hlo)
          (by rw [read_pos]; exact hll) _ _ hrun
        rw [hbytes] at this
        exact this
      · rw [htu, h1] at h2; cases h2

theorem Bounds.get {T lo : Int} {ls cs} (h : Bounds T lo ls cs) : ∀ (k : Nat) (l : Int), ls[k]? = some l →
    ∃ c : Nat, cs[k]? = some c ∧ l ≤ T - c ∧ (k = 0 → lo ≤ l) ∧
      ∀ j, k = j + 1 → ∃ c' : Nat, cs[j]? = some c' ∧ T - c' ≤ l := by
  induction h with
  | stop => intro k l h; simp at h
  | @cons lo l c ls cs h1 h2 h3 ih =>
    intro k x hx
    cases k with
    | zero =>
      simp only [List.getElem?_cons_zero, Option.some.injEq] at hx
      subst hx
      exact ⟨c, by simp, h2, fun _ => h1, by omega⟩
    | succ k =>
      simp only [List.getElem?_cons_succ] at hx
      obtain ⟨c', e1, e2, e3, e4⟩ := ih k x hx
      refine ⟨c', by simpa using e1, e2, by omega, ?_⟩
      intro j hj
      obtain rfl : j = k := by omega
      cases j with
      | zero => exact ⟨c, by simp, e3 rfl⟩
      | succ j =>
        obtain ⟨c2, f1, f2⟩ := e4 j rfl
        exact ⟨c2, by simpa using f1, f2⟩

/-- **C150** However the stream is read, the reported line of a token is never beyond its true line, and never before
the true line of the token before it. -/
theorem C150_lines_partial (p : Nat → Bool) (hp : UsedScanFunc p) (lim : Nat) (hlim : 4 ≤ lim) (stream : List UInt8)
    (reads : List ReadChoice) (toks : List Token) (tooLong : Bool)
    (h : tokenize p lim stream reads = some (toks, tooLong)) (k : Nat) (t : Token) (ht : toks[k]? = some t) :
    ∃ pos, (truePositions p stream)[k]? = some pos ∧ 1 ≤ t.line ∧ t.line ≤ pos.1 ∧
      (∀ before, 0 < k → (truePositions p stream)[k - 1]? = some before → before.1 ≤ t.line) := by
  have hi : Inv lim true (newTokenizer stream reads) :=
    ⟨by simp [newTokenizer], by simp [newTokenizer], by simp [newTokenizer], by simp [newTokenizer], by simp⟩
  unfold tokenize at h
  simp only [Option.map_eq_some_iff] at h
  obtain ⟨⟨ts, e⟩, hrun, heq⟩ := h
  obtain ⟨rfl, -⟩ := Prod.mk.inj heq
  have hnl : p 0x0A = false := by rcases hp with rfl | rfl <;> decide
  have hb := lines_bound p hp.good hnl lim hlim _ _ (1 + (stream.count 0x0A : Nat)) 1 hi (by simp [newTokenizer])
    (by omega) (by simp [newTokenizer]) (Or.inl rfl) _ _ hrun
  have hlines := starts_lines p stream {}
  simp only at hlines
  have hbytes : (newTokenizer stream reads).win ++ (newTokenizer stream reads).rest = stream := by simp [newTokenizer]
  rw [hbytes] at hb
  have hget : ∀ (j c : Nat), (newlinesFrom p stream)[j]? = some c →
      ∃ q, (truePositions p stream)[j]? = some q ∧ q.1 = 1 + (stream.count 0x0A : Nat) - (c : Int) := by
    intro j c hc
    have h1 := congrArg (fun l => l[j]?) hlines
    simp only [List.getElem?_map, hc, Option.map_some] at h1
    simp only [Option.map_eq_some_iff] at h1
    obtain ⟨q, h2, h3⟩ := h1
    exact ⟨q, h2, h3⟩
  obtain ⟨c, h1, h2, h3, h4⟩ := hb.get k t.line (by simp [ht])
  obtain ⟨q, hq1, hq2⟩ := hget k c h1
  refine ⟨q, hq1, ?_, by omega, ?_⟩
  · cases k with
    | zero => exact h3 rfl
    | succ j =>
      obtain ⟨c', e1, e2⟩ := h4 j rfl
      have : (c' : Int) ≤ (stream.count 0x0A : Nat) := by
        have hsuf : ∀ (R : List UInt8) (x : Nat), x ∈ newlinesFrom p R → x ≤ R.count 0x0A := by
          intro R
          generalize hn : R.length = n
          induction n using Nat.strongRecOn generalizing R with
          | _ n ih =>
            intro x hx
            have hle : (skipD p R).count 0x0A ≤ R.count 0x0A := (List.drop_sublist _ _).count_le _
            by_cases hne : skipD p R = []
            · rw [newlinesFrom_nil p R hne] at hx; cases hx
            · cases hf : scanF p (skipD p R) with
              | none =>
                rw [newlinesFrom_none p R hf hne] at hx
                simp only [List.mem_singleton] at hx; omega
              | some iw =>
                obtain ⟨i, w⟩ := iw
                have hb := scanF_bound _ _ _ _ hf
                have hl := skipD_length_le p R
                rw [newlinesFrom_some p R i w hf] at hx
                rcases List.mem_cons.mp hx with hx | hx
                · omega
                · have h1 := ih _ (by simp only [List.length_drop]; omega) _ rfl x hx
                  have h2 : ((skipD p R).drop (i + w)).count 0x0A ≤ (skipD p R).count 0x0A :=
                    (List.drop_sublist _ _).count_le _
                  omega
        have := hsuf stream c' (List.mem_of_getElem? e1)
        omega
      omega
  · intro before hk hbe
    obtain ⟨j, rfl⟩ : ∃ j, k = j + 1 := ⟨k - 1, by omega⟩
    obtain ⟨c', e1, e2⟩ := h4 j rfl
    obtain ⟨q', hq1', hq2'⟩ := hget j c' e1
    simp only [Nat.add_sub_cancel] at hbe
    rw [hq1'] at hbe
    obtain rfl := Option.some.inj hbe
    omega

/-- **C150** In particular, the line of a token is right, however the stream is read, if the token before it is on the
same line, or if the token is on line 1: only the first token of a line can be misplaced. -/
theorem C150_same_line_partial (p : Nat → Bool) (hp : UsedScanFunc p) (lim : Nat) (hlim : 4 ≤ lim) (stream : List UInt8)
    (reads : List ReadChoice) (toks : List Token) (tooLong : Bool)
    (h : tokenize p lim stream reads = some (toks, tooLong)) (k : Nat) (t : Token) (ht : toks[k]? = some t)
    (pos : Int × Int) (hpos : (truePositions p stream)[k]? = some pos)
    (hsame : pos.1 = 1 ∨ ∃ before, 0 < k ∧ (truePositions p stream)[k - 1]? = some before ∧ before.1 = pos.1) :
    t.line = pos.1 := by
  obtain ⟨q, h1, h2, h3, h4⟩ := C150_lines_partial p hp lim hlim stream reads toks tooLong h k t ht
  rw [hpos] at h1
  obtain rfl := Option.some.inj h1
  rcases hsame with hs | ⟨before, hk, hb, he⟩
  · omega
  · have := h4 before hk hb
    omega

/-- The columns have no such bounds: reading "ab c" one byte at a time reports column 7 for the second token instead of 4. -/
theorem C150_columns_depend_on_reads :
    truePositions isNonWhitespace [0x61, 0x62, 0x20, 0x63] = [(1, 1), (1, 4)] ∧
    tokenize isNonWhitespace 4096 [0x61, 0x62, 0x20, 0x63] []
      = some ([{ text := [0x61, 0x62], line := 1, column := 1 }, { text := [0x63], line := 1, column := 4 }], false) ∧
    tokenize isNonWhitespace 4096 [0x61, 0x62, 0x20, 0x63] (List.replicate 4 { n := 1 })
      = some ([{ text := [0x61, 0x62], line := 1, column := 1 }, { text := [0x63], line := 1, column := 7 }], false) := by
  decide +kernel

-- Non-vacuity: two tokens, read in one go and in two pieces; the second line is only right in the first reading.
example : [0x61, 0x0A, 0x0A, 0x0A, 0x62].length ≤ 4096 ∧
    truePositions isNonWhitespace [0x61, 0x0A, 0x0A, 0x0A, 0x62] = [(1, 1), (4, 1)] ∧
    tokenize isNonWhitespace 4194304 [0x61, 0x0A, 0x0A, 0x0A, 0x62] []
      = some ([{ text := [0x61], line := 1, column := 1 }, { text := [0x62], line := 4, column := 1 }], false) ∧
    tokenize isNonWhitespace 4194304 [0x61, 0x0A, 0x0A, 0x0A, 0x62] [{ n := 3 }]
      = some ([{ text := [0x61], line := 1, column := 1 }, { text := [0x62], line := 3, column := 1 }], false) := by
  decide +kernel

-- The hypotheses of `C150_same_line_partial`: the second token of the second line, read in two pieces.
example (t : Token) (h : ((tokenize isNonWhitespace 4194304 [0x61, 0x0A, 0x62, 0x20, 0x63] [{ n := 1 }]).map
    fun x => x.1[2]?) = some (some t)) : t.line = 2 := by
  cases hx : tokenize isNonWhitespace 4194304 [0x61, 0x0A, 0x62, 0x20, 0x63] [{ n := 1 }] with
  | none => rw [hx] at h; cases h
  | some x =>
    rw [hx] at h
    exact C150_same_line_partial isNonWhitespace (Or.inl rfl) 4194304 (by decide) _ _ x.1 x.2 hx 2 t
      (Option.some.inj h) (2, 3) (by decide +kernel) (Or.inr ⟨(2, 1), by decide, by decide +kernel, rfl⟩)

end Quark.Tokenizer
