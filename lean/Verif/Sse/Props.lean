import Verif.Sse.Spec
import Mathlib.Tactic.Push

/-!
# Messages over Server-Sent Events

C163: what a browser gets of the messages written to its stream, wherever the stream is cut.
-/

namespace Quark.Sse
open Spec

/-! ## The reader -/

/-- The reader after a stream of which `cur` has been read of the first line. -/
def feed (r : Reader) (cur s : Bytes) : Reader := (lines cur s).foldl process r

theorem lines_lf (cur r : Bytes) : lines cur (0x0A :: r) = cur :: lines [] r := by
  rw [lines.eq_def]; simp

theorem lines_other (cur r : Bytes) (b : UInt8) (h : b ≠ 0x0A ∧ b ≠ 0x0D) :
    lines cur (b :: r) = lines (cur ++ [b]) r := by
  rw [lines.eq_def]
  split
  · rename_i heq; cases heq
  · rename_i heq; cases heq; exact absurd rfl h.2
  · rename_i heq; cases heq
    rw [if_neg (by rintro (h' | h'); exacts [h.2 h', h.1 h'])]

theorem lines_text (r : Bytes) : ∀ (t cur : Bytes), OneLine t → lines cur (t ++ r) = lines (cur ++ t) r
  | [], cur, _ => by simp
  | b :: t, cur, h => by
    rw [List.cons_append, lines_other _ _ _ (h b (by simp)), lines_text r t _ (fun c hc => h c (by simp [hc]))]
    simp

theorem lines_unfinished (t cur : Bytes) (h : OneLine t) : lines cur t = [] := by
  have := lines_text [] t cur h
  rw [List.append_nil] at this
  rw [this, lines.eq_def]

/-- The line that `frame` begins with. -/
def dataLine (text : Bytes) : Bytes := [0x64, 0x61, 0x74, 0x61, 0x3A, 0x20] ++ text

theorem process_data (r : Reader) (text : Bytes) :
    process r (dataLine text) = { r with data := r.data ++ text ++ [0x0A] } := by
  rw [dataLine, process.eq_def]
  simp [field, dropSpace]

theorem oneLine_data {text : Bytes} (h : OneLine text) : OneLine (dataLine text) := by
  intro b hb
  rw [dataLine, List.mem_append] at hb
  rcases hb with hb | hb
  · simp at hb
    rcases hb with h | h | h | h | h | h <;> subst h <;> decide
  · exact h b hb

theorem frame_eq (text : Bytes) : frame text = dataLine text ++ [0x0A, 0x0A] := rfl

theorem feed_frame (r : Reader) (hd : r.data = []) (text rest : Bytes) (h : OneLine text) :
    feed r [] (frame text ++ rest) =
      feed { r with type := [], out := r.out ++ [{ data := text, type := r.type, lastId := r.lastId }] } [] rest := by
  rw [feed, frame_eq, List.append_assoc, lines_text _ _ _ (oneLine_data h), List.nil_append, List.cons_append,
    List.cons_append, List.nil_append, lines_lf, lines_lf, List.foldl_cons, List.foldl_cons, process_data]
  simp [feed, process, dispatch, hd]

theorem feed_ping (r : Reader) (rest : Bytes) : feed r [] (pingBytes ++ rest) = feed r [] rest := by
  rw [feed, pingBytes]
  show List.foldl process r (lines [] (0x3A :: 0x0A :: rest)) = _
  rw [lines_other _ _ _ (by decide), lines_lf]
  rfl

/-! ## Prefixes -/

theorem prefix_append_cases {α : Type*} {p a b : List α} (h : p <+: a ++ b) :
    (∃ q, p ++ q = a ∧ q ≠ []) ∨ ∃ p', p = a ++ p' ∧ p' <+: b := by
  obtain ⟨q, hq⟩ := h
  rcases List.append_eq_append_iff.mp hq with ⟨c, h1, h2⟩ | ⟨c, h1, h2⟩
  · by_cases hc : c = []
    · right
      subst hc
      refine ⟨[], by simpa using h1.symm, List.nil_prefix⟩
    · left; exact ⟨c, h1.symm, hc⟩
  · right; exact ⟨c, h1, q, h2.symm⟩

/-- A part of a frame makes no event. -/
theorem feed_part (r : Reader) (text p q : Bytes) (h : OneLine text) (hp : p ++ q = frame text) (hq : q ≠ []) :
    (feed r [] p).out = r.out := by
  have h1 : p <+: dataLine text ++ [0x0A] := by
    rw [frame_eq] at hp
    obtain ⟨c, q', rfl⟩ : ∃ q' c, q = q' ++ [c] := ⟨q.dropLast, q.getLast hq, (List.dropLast_append_getLast hq).symm⟩
    have : p ++ c = dataLine text ++ [0x0A] := by
      have := congrArg List.dropLast hp
      simpa using this
    exact ⟨c, this⟩
  rcases prefix_append_cases h1 with ⟨c, hc, -⟩ | ⟨p', rfl, hp'⟩
  · have : OneLine p := fun b hb => oneLine_data h b (hc ▸ List.mem_append_left _ hb)
    rw [feed, lines_unfinished _ _ this]
    rfl
  · rw [feed, lines_text _ _ _ (oneLine_data h), List.nil_append]
    have : p' = [] ∨ p' = [0x0A] := by
      obtain ⟨c, hc⟩ := hp'
      cases p' with
      | nil => exact .inl rfl
      | cons x xs =>
        right
        rw [List.cons_append] at hc
        injection hc with h1 h2
        rw [List.append_eq_nil_iff] at h2
        rw [h1, h2.1]
    rcases this with rfl | rfl
    · rw [lines.eq_def]; rfl
    · rw [lines_lf, lines.eq_def]
      show (process r (dataLine text)).out = _
      rw [process_data]

theorem feed_ping_part (r : Reader) (p : Bytes) (hp : p <+: pingBytes) : feed r [] p = r := by
  obtain ⟨q, hq⟩ := hp
  rcases p with _ | ⟨a, _ | ⟨b, _ | ⟨c, p⟩⟩⟩
  · rfl
  · injection hq with h1 h2; subst h1; rfl
  · injection hq with h1 h2; injection h2 with h3 h4; subst h1; subst h3; rfl
  · exact absurd (congrArg List.length hq) (by simp [pingBytes])

/-! ## C163 -/

/-- The messages among some turns. -/
def messages (turns : List Turn) : List Bytes :=
  turns.filterMap fun | .message t _ => some t | _ => none

/-- Turns in which every write succeeded. -/
def Succeeded (turns : List Turn) : Prop :=
  ∀ t ∈ turns, (∃ text, t = .message text none) ∨ t = .ping none

theorem plain_prefix : ∀ (turns : List Turn) (r : Reader) (p : Bytes), r.data = [] → r.type = [] → r.lastId = [] →
    (∀ m ∈ messages turns, OneLine m) → p <+: written turns →
    ∃ l, (feed r [] p).out = r.out ++ l ∧ l <+: (messages turns).map plain
  | [], r, p, _, _, _, _, hp => by
    rw [List.prefix_nil.mp hp]
    exact ⟨[], by simp [feed, lines], List.nil_prefix⟩
  | .ends :: _, r, p, _, _, _, _, hp => by
    rw [List.prefix_nil.mp hp]
    exact ⟨[], by simp [feed, lines], List.nil_prefix⟩
  | .ping none :: rest, r, p, hd, ht, hi, hm, hp => by
    rcases prefix_append_cases (show p <+: pingBytes ++ written rest from hp) with ⟨q, hq, -⟩ | ⟨p', rfl, hp'⟩
    · exact ⟨[], by rw [feed_ping_part r p ⟨q, hq⟩, List.append_nil], List.nil_prefix⟩
    · rw [feed_ping]
      exact plain_prefix rest r p' hd ht hi hm hp'
  | .ping (some n) :: _, r, p, _, _, _, _, hp =>
    ⟨[], by rw [feed_ping_part r p (hp.trans (List.take_prefix _ _)), List.append_nil], List.nil_prefix⟩
  | .message t none :: rest, r, p, hd, ht, hi, hm, hp => by
    have h1 : OneLine t := hm t (by simp [messages])
    rcases prefix_append_cases (show p <+: frame t ++ written rest from hp) with ⟨q, hq, hq'⟩ | ⟨p', rfl, hp'⟩
    · exact ⟨[], by rw [feed_part r t p q h1 hq hq', List.append_nil], List.nil_prefix⟩
    · rw [feed_frame r hd _ _ h1]
      obtain ⟨l, hl, hpre⟩ := plain_prefix rest { r with type := [], out := r.out ++ [⟨t, r.type, r.lastId⟩] } p' hd rfl hi
        (fun m hm' => hm m (by simp only [messages, List.filterMap_cons]; exact List.mem_cons_of_mem _ hm')) hp'
      refine ⟨plain t :: l, ?_, ?_⟩
      · rw [hl, ht, hi]; simp [plain]
      · simp only [messages, List.filterMap_cons, List.map_cons]
        exact (List.prefix_cons_inj _).mpr hpre
  | .message t (some n) :: rest, r, p, hd, ht, hi, hm, hp => by
    have h1 : OneLine t := hm t (by simp [messages])
    obtain ⟨q, hq⟩ := hp.trans (List.take_prefix n (frame t))
    by_cases hq' : q = []
    · subst hq'
      rw [List.append_nil] at hq
      rw [hq, ← List.append_nil (frame t), feed_frame r hd _ _ h1]
      refine ⟨[plain t], ?_, ?_⟩
      · simp [feed, lines, plain, ht, hi]
      · simp only [messages, List.filterMap_cons, List.map_cons]
        exact ⟨_, rfl⟩
    · exact ⟨[], by rw [feed_part r t p q h1 hq hq', List.append_nil], List.nil_prefix⟩

/-- **C163** If the messages have no line ends, then wherever the stream ends, and whatever is sent between the messages,
what the browser has dispatched is the first so many messages, each exactly as it was. -/
theorem C163_prefix (turns : List Turn) (hm : ∀ m ∈ messages turns, OneLine m) (received : Bytes)
    (hp : received <+: written turns) : events received <+: (messages turns).map plain := by
  obtain ⟨l, hl, hpre⟩ := plain_prefix turns {} received rfl rfl rfl hm hp
  rw [show events received = l from by simpa [feed, events] using hl]
  exact hpre

theorem plain_arrived : ∀ (turns : List Turn) (r : Reader) (rest : Bytes), r.data = [] → r.type = [] → r.lastId = [] →
    (∀ m ∈ messages turns, OneLine m) → Succeeded turns →
    feed r [] (written turns ++ rest) = feed { r with out := r.out ++ (messages turns).map plain } [] rest
  | [], r, rest, _, _, _, _, _ => by simp [written, messages]
  | .ends :: _, _, _, _, _, _, _, hs => by
    rcases hs .ends (by simp) with ⟨_, h⟩ | h <;> cases h
  | .ping none :: turns, r, rest, hd, ht, hi, hm, hs => by
    rw [show written (.ping none :: turns) = pingBytes ++ written turns from rfl, List.append_assoc, feed_ping]
    exact plain_arrived turns r rest hd ht hi hm fun t h => hs t (by simp [h])
  | .ping (some n) :: _, _, _, _, _, _, _, hs => by
    rcases hs (.ping (some n)) (by simp) with ⟨_, h⟩ | h <;> cases h
  | .message t (some n) :: _, _, _, _, _, _, _, hs => by
    rcases hs (.message t (some n)) (by simp) with ⟨_, h⟩ | h <;> cases h
  | .message t none :: turns, r, rest, hd, ht, hi, hm, hs => by
    rw [show written (.message t none :: turns) = frame t ++ written turns from rfl, List.append_assoc,
      feed_frame r hd _ _ (hm t (by simp [messages])),
      plain_arrived turns _ rest (by exact hd) rfl (by exact hi)
        (fun m hm' => hm m (by simp only [messages, List.filterMap_cons]; exact List.mem_cons_of_mem _ hm'))
        fun t h => hs t (by simp [h])]
    simp [messages, plain, ht, hi]

theorem out_mono (ls : List Bytes) : ∀ r : Reader, r.out <+: (ls.foldl process r).out := by
  induction ls with
  | nil => intro r; exact List.prefix_rfl
  | cons l ls ih =>
    intro r
    refine List.IsPrefix.trans ?_ (ih (process r l))
    rw [process.eq_def]
    split
    · unfold dispatch
      split
      · exact List.prefix_rfl
      · exact ⟨_, rfl⟩
    · exact List.prefix_rfl
    · split <;> (unfold field; repeat' split) <;> exact List.prefix_rfl

/-- **C163** And it has dispatched every message of which the last byte has arrived: an event is not held back until the
next one. -/
theorem C163_arrived (before after : List Turn) (hs : Succeeded before) (hm : ∀ m ∈ messages before, OneLine m)
    (received : Bytes) (_hp : received <+: written (before ++ after)) (harr : written before <+: received) :
    (messages before).map plain <+: events received := by
  obtain ⟨rest, rfl⟩ := harr
  have := plain_arrived before {} rest rfl rfl rfl hm hs
  rw [events, show (lines [] (written before ++ rest)).foldl process {} = feed {} [] (written before ++ rest) from rfl, this]
  have h := out_mono (lines [] rest) { out := (messages before).map plain }
  simpa [feed] using h

/-- Nothing is lost or added when every write succeeds and everything arrives. -/
theorem C163_complete (turns : List Turn) (hs : Succeeded turns) (hm : ∀ m ∈ messages turns, OneLine m) :
    events (written turns) = (messages turns).map plain := by
  have := plain_arrived turns {} [] rfl rfl rfl hm hs
  rw [List.append_nil] at this
  rw [events, show (lines [] (written turns)).foldl process {} = feed {} [] (written turns) from rfl, this]
  simp [feed, lines]

/-! ## Texts with line ends -/

/-- What the reader has taken in as data. -/
def taken (r : Reader) : Nat := (r.out.map fun e => e.data.length + 1).sum + r.data.length

theorem taken_dispatch (r : Reader) : taken (dispatch r) = taken r := by
  unfold dispatch
  split
  · rfl
  · rename_i h
    have : 0 < r.data.length := List.length_pos_iff.mpr h
    simp [taken]; omega

theorem dropSpace_length (v : Bytes) : (dropSpace v).length ≤ v.length := by
  unfold dropSpace; split <;> simp

theorem taken_field (r : Reader) (n v : Bytes) (k : Nat) (h : n = [0x64, 0x61, 0x74, 0x61] → v.length + 1 ≤ k) :
    taken (field r n v) ≤ taken r + k := by
  unfold field
  split
  · rename_i h1
    have := h h1
    simp [taken]; omega
  · repeat' split
    all_goals simp [taken]

theorem taken_process (r : Reader) (line : Bytes) : taken (process r line) ≤ taken r + (line.length - 1) := by
  rw [process.eq_def]
  split
  · simp [taken_dispatch]
  · omega
  · rename_i hne hcolon
    split
    · apply taken_field
      intro h
      have h1 := congrArg List.length (List.takeWhile_append_dropWhile (p := fun b : UInt8 => b ≠ 0x3A) (l := line))
      rw [List.length_append, h] at h1
      have h2 := dropSpace_length ((line.dropWhile (· ≠ 0x3A)).drop 1)
      rw [List.length_drop] at h2
      simp only [List.length_cons, List.length_nil] at h1
      omega
    · apply taken_field
      rintro rfl
      simp

theorem taken_rest : ∀ (s cur : Bytes) (r : Reader),
    taken (feed r cur (s ++ [0x0A, 0x0A])) ≤ taken r + cur.length + s.length
  | [], cur, r => by
    rw [List.nil_append, feed, lines_lf, lines_lf, lines.eq_def]
    show taken (process (process r cur) []) ≤ _
    have h1 := taken_process r cur
    have h2 := taken_process (process r cur) []
    simp at h2 ⊢; omega
  | [b], cur, r => by
    by_cases hb : b = 0x0A ∨ b = 0x0D
    · rcases hb with rfl | rfl
      · have ih := taken_rest [] [] (process r cur)
        have h1 := taken_process r cur
        rw [List.cons_append, feed, lines_lf]
        show taken (feed (process r cur) [] _) ≤ _
        simp at ih ⊢; omega
      · rw [feed]
        show taken ((lines cur (0x0D :: 0x0A :: [0x0A])).foldl process r) ≤ _
        rw [lines.eq_def]
        show taken ((lines [] [0x0A]).foldl process (process r cur)) ≤ _
        rw [lines_lf, lines.eq_def]
        show taken (process (process r cur) []) ≤ _
        have h1 := taken_process r cur
        have h2 := taken_process (process r cur) []
        simp at h2 ⊢; omega
    · push Not at hb
      have ih := taken_rest [] (cur ++ [b]) r
      rw [List.cons_append, feed, lines_other _ _ _ hb]
      show taken (feed r _ _) ≤ _
      simp at ih ⊢; omega
  | b :: c :: s, cur, r => by
    by_cases hb : b = 0x0A ∨ b = 0x0D
    · have h1 := taken_process r cur
      by_cases hcr : b = 0x0D ∧ c = 0x0A
      · obtain ⟨rfl, rfl⟩ := hcr
        have ih := taken_rest s [] (process r cur)
        rw [List.cons_append, List.cons_append, feed, lines.eq_def]
        show taken (feed (process r cur) [] _) ≤ _
        simp at ih ⊢; omega
      · have ih := taken_rest (c :: s) [] (process r cur)
        have : lines cur (b :: c :: s ++ [0x0A, 0x0A]) = cur :: lines [] (c :: s ++ [0x0A, 0x0A]) := by
          rw [List.cons_append, lines.eq_def]
          split
          · rename_i heq; cases heq
          · rename_i heq
            rw [List.cons_append] at heq
            injection heq with e1 e2
            injection e2 with e3 e4
            exact absurd ⟨e1, e3⟩ hcr
          · rename_i heq
            injection heq with e1 e2
            rw [if_pos (by rw [← e1]; exact hb.symm), ← e2]
        rw [feed, this]
        show taken (feed (process r cur) [] _) ≤ _
        simp at ih ⊢; omega
    · push Not at hb
      have ih := taken_rest (c :: s) (cur ++ [b]) r
      rw [List.cons_append, feed, lines_other _ _ _ hb]
      show taken (feed r _ _) ≤ _
      simp at ih ⊢; omega

theorem first_end : ∀ (m : Bytes), ¬OneLine m → ∃ a b s, m = a ++ b :: s ∧ OneLine a ∧ (b = 0x0A ∨ b = 0x0D)
  | [], h => absurd (fun _ hb => by simp at hb) h
  | c :: m, h => by
    by_cases hc : c = 0x0A ∨ c = 0x0D
    · exact ⟨[], c, m, rfl, fun _ hb => by simp at hb, hc⟩
    · push Not at hc
      have : ¬OneLine m := fun hm => h fun b hb => by
        rcases List.mem_cons.mp hb with rfl | hb
        · exact hc
        · exact hm b hb
      obtain ⟨a, b, s, rfl, ha, hb⟩ := first_end m this
      refine ⟨c :: a, b, s, rfl, fun x hx => ?_, hb⟩
      rcases List.mem_cons.mp hx with rfl | hx
      · exact hc
      · exact ha x hx

/-- **C163** A message arrives as it is exactly if it has no line ends. -/
theorem C163_iff_partial (text : Bytes) : events (written [.message text none]) = [plain text] ↔ OneLine text := by
  constructor
  · intro h
    by_contra hn
    obtain ⟨a, b, s, rfl, ha, hb⟩ := first_end text hn
    have hf : written [.message (a ++ b :: s) none] = dataLine a ++ (b :: (s ++ [0x0A, 0x0A])) := by
      simp [written, frame, dataLine]
    have h1 : events (written [.message (a ++ b :: s) none]) =
        ((lines (dataLine a) (b :: (s ++ [0x0A, 0x0A]))).foldl process {}).out := by
      rw [hf, events, lines_text _ _ _ (oneLine_data ha), List.nil_append]
    have hbound : taken ((lines (dataLine a) (b :: (s ++ [0x0A, 0x0A]))).foldl process {}) ≤ a.length + 1 + s.length := by
      have hp : process {} (dataLine a) = ({ data := a ++ [0x0A] } : Reader) := by
        rw [process_data]; simp
      have ht : taken ({ data := a ++ [0x0A] } : Reader) = a.length + 1 := by simp [taken]
      have key : ∀ s', s'.length ≤ s.length →
          taken (feed ({ data := a ++ [0x0A] } : Reader) [] (s' ++ [0x0A, 0x0A])) ≤ a.length + 1 + s.length := by
        intro s' hs'
        have := taken_rest s' [] ({ data := a ++ [0x0A] } : Reader)
        simp only [ht, List.length_nil] at this
        omega
      rcases hb with rfl | rfl
      · rw [lines_lf, List.foldl_cons, hp]
        exact key s (Nat.le_refl _)
      · cases s with
        | nil =>
          rw [show lines (dataLine a) (0x0D :: ([] ++ [0x0A, 0x0A])) = dataLine a :: lines [] [0x0A] from by
            rw [lines.eq_def]; simp, List.foldl_cons, hp, lines_lf, lines.eq_def]
          show taken (process _ []) ≤ _
          have := taken_process ({ data := a ++ [0x0A] } : Reader) []
          rw [ht] at this
          simpa using this
        | cons c s =>
          by_cases hc : c = 0x0A
          · subst hc
            rw [show lines (dataLine a) (0x0D :: (0x0A :: s ++ [0x0A, 0x0A])) = dataLine a :: lines [] (s ++ [0x0A, 0x0A])
              from by rw [lines.eq_def]; simp, List.foldl_cons, hp]
            exact key s (by simp)
          · rw [show lines (dataLine a) (0x0D :: (c :: s ++ [0x0A, 0x0A])) =
                dataLine a :: lines [] (c :: s ++ [0x0A, 0x0A]) from by
              rw [lines.eq_def]
              split
              · rename_i heq; cases heq
              · rename_i heq
                rw [List.cons_append] at heq
                injection heq with e1 e2
                injection e2 with e3 e4
                exact absurd e3 hc
              · rename_i heq
                injection heq with e1 e2
                rw [if_pos (by rw [← e1]; exact .inl rfl), ← e2], List.foldl_cons, hp]
            exact key (c :: s) (Nat.le_refl _)
    rw [h1] at h
    rw [taken, h] at hbound
    simp [plain] at hbound
    omega
  · intro h
    rw [C163_complete _ (by simp [Succeeded]) (by simpa [messages] using h)]
    rfl

/-- **C163** Who can have a message broadcast can have it arrive as any two events. -/
theorem C163_forged (first second : Bytes) (h1 : OneLine first) (h2 : OneLine second) :
    ∃ text, events (written [.message text none]) = [plain first, plain second] := by
  refine ⟨first ++ [0x0A, 0x0A] ++ [0x64, 0x61, 0x74, 0x61, 0x3A, 0x20] ++ second, ?_⟩
  have : written [.message (first ++ [0x0A, 0x0A] ++ [0x64, 0x61, 0x74, 0x61, 0x3A, 0x20] ++ second) none] =
      written [.message first none, .message second none] := by
    simp [written, frame]
  rw [this, C163_complete _ (by simp [Succeeded]) (by simpa [messages] using ⟨h1, h2⟩)]
  rfl

/-- **C163** So it is false that every message arrives as it was. -/
theorem C163_false : ¬ ∀ text : Bytes, events (written [.message text none]) = [plain text] := by
  intro h
  have := (C163_iff_partial [0x0A]).mp (h _)
  exact (this 0x0A (by simp)).1 rfl

/-! ## The grader's own messages -/

theorem hex_ok : ∀ n : Fin 256, hex (UInt8.ofNat n.val / 16) ≠ 0x0A ∧ hex (UInt8.ofNat n.val / 16) ≠ 0x0D ∧
    hex (UInt8.ofNat n.val % 16) ≠ 0x0A ∧ hex (UInt8.ofNat n.val % 16) ≠ 0x0D := by
  decide +kernel

theorem oneLine_append {a b : Bytes} (ha : OneLine a) (hb : OneLine b) : OneLine (a ++ b) := by
  intro x hx
  rcases List.mem_append.mp hx with hx | hx
  · exact ha x hx
  · exact hb x hx

theorem oneLine_cons {x : UInt8} {b : Bytes} (hx : x ≠ 0x0A ∧ x ≠ 0x0D) (hb : OneLine b) : OneLine (x :: b) :=
  oneLine_append (a := [x]) (fun y hy => by rw [List.mem_singleton.mp hy]; exact hx) hb

theorem oneLine_nil : OneLine [] := fun _ h => by simp at h

instance (t : Bytes) : Decidable (OneLine t) := inferInstanceAs (Decidable (∀ b ∈ t, _))

theorem oneLine_escaped (s : Bytes) : OneLine (escaped s) := by
  induction s using escaped.induct with
  | case1 r ih => exact oneLine_append (by decide) ih
  | case2 r ih => exact oneLine_append (by decide) ih
  | case3 b r _ _ ih =>
    rw [escaped.eq_3 _ _ (by assumption) (by assumption)]
    refine oneLine_append ?_ ih
    by_cases h1 : b = 0x22 ∨ b = 0x5C
    · rw [if_pos h1]
      rcases h1 with rfl | rfl <;> decide
    rw [if_neg h1]
    by_cases h2 : b = 0x0A
    · rw [if_pos h2]; decide
    rw [if_neg h2]
    by_cases h3 : b = 0x0D
    · rw [if_pos h3]; decide
    rw [if_neg h3]
    by_cases h4 : b = 0x09
    · rw [if_pos h4]; decide
    rw [if_neg h4]
    split
    · have := hex_ok ⟨b.toNat, b.toNat_lt⟩
      simp only [UInt8.ofNat_toNat] at this
      exact oneLine_append (a := [0x5C, 0x75, 0x30, 0x30]) (by decide)
        (oneLine_cons ⟨this.1, this.2.1⟩ (oneLine_cons ⟨this.2.2.1, this.2.2.2⟩ oneLine_nil))
    · exact oneLine_cons ⟨h2, h3⟩ oneLine_nil
  | case4 => exact oneLine_nil

theorem oneLine_quote (s : Bytes) : OneLine (quote s) :=
  oneLine_append (oneLine_append (by decide) (oneLine_escaped s)) (by decide)

theorem oneLine_number (n : Number) : OneLine n.text := by
  intro b hb
  have := n.ok b hb
  simp only [List.mem_cons, List.not_mem_nil, or_false] at this
  constructor <;> (rintro rfl; revert this; decide)

theorem oneLine_intercalate (l : List Bytes) (h : ∀ x ∈ l, OneLine x) : OneLine (List.intercalate [0x2C] l) := by
  induction l with
  | nil => exact oneLine_nil
  | cons x l ih =>
    cases l with
    | nil => simpa [List.intercalate] using h x (by simp)
    | cons y l =>
      have := ih fun z hz => h z (by simp [hz])
      have e : List.intercalate ([0x2C] : Bytes) (x :: y :: l) = x ++ [0x2C] ++ List.intercalate [0x2C] (y :: l) := by
        simp [List.intercalate, List.intersperse]
      rw [e]
      exact oneLine_append (oneLine_append (h x (by simp)) (by decide)) this

theorem oneLine_object (l : List (Bytes × Bytes)) (h : ∀ x ∈ l, OneLine x.2) : OneLine (object l) := by
  refine oneLine_append (oneLine_append (by decide) (oneLine_intercalate _ ?_)) (by decide)
  intro x hx
  obtain ⟨f, hf, rfl⟩ := List.mem_map.mp hx
  exact oneLine_append (oneLine_append (oneLine_quote _) (by decide)) (h f hf)

/-- **C163** The text of a run's update has no line ends, whatever is in the names, the verdict and the language. -/
theorem C163_update (u : RunUpdate) : OneLine (updateText u) := by
  apply oneLine_object
  intro x hx
  rcases List.mem_cons.mp hx with rfl | hx
  · exact oneLine_quote _
  · rw [List.mem_singleton.mp hx]
    apply oneLine_object
    intro y hy
    obtain ⟨f, -, hf⟩ := List.mem_filterMap.mp hy
    cases hv : f.2 with
    | string s =>
      rw [hv] at hf
      injection hf with hf
      rw [← hf]; exact oneLine_quote s
    | number n =>
      rw [hv] at hf
      injection hf with hf
      rw [← hf]; exact oneLine_number n
    | absent => rw [hv] at hf; cases hf

/-- **C163** So every update of a run that was sent arrives as it is, one event each, wherever the stream is cut. -/
theorem C163_updates (us : List RunUpdate) (received : Bytes)
    (hp : received <+: written (us.map fun u => .message (updateText u) none)) :
    events received <+: us.map fun u => plain (updateText u) := by
  have hm : messages (us.map fun u => .message (updateText u) none) = us.map updateText := by
    simp [messages, List.filterMap_map]
  have := C163_prefix _ (by
    rw [hm]
    intro m h
    obtain ⟨u, -, rfl⟩ := List.mem_map.mp h
    exact C163_update u) received hp
  rw [hm, List.map_map] at this
  exact this

/-! ## Examples -/

-- two messages with a ping between them, cut in the middle of the second
example : events ((written [.message [0x61] none, .ping none, .message [0x62, 0x3A, 0x20] none]).take 18) =
    [plain [0x61]] ∧
    events (written [.message [0x61] none, .ping none, .message [0x62, 0x3A, 0x20] none]) =
    [plain [0x61], plain [0x62, 0x3A, 0x20]] := by
  decide +kernel

-- an empty message is an event
example : events (written [.message [] none]) = [plain []] := by decide +kernel

-- a message that changes the type of its event, and the identifier of all later ones
example : events (written [.message (bytes "a\nevent: b\nid: 7") none, .message [0x63] none]) =
    [⟨[0x61], [0x62], [0x37]⟩, ⟨[0x63], [], [0x37]⟩] := by
  decide +kernel

-- a user name with a line end in an update
example : quote (bytes "a\nb") = bytes "\"a\\nb\"" ∧
    object [(bytes "k", quote (bytes "<"))] = bytes "{\"k\":\"\\u003c\"}" := by
  decide +kernel

-- the hypotheses of `C163_prefix` and `C163_arrived`: the connection ends in the middle of the second message
example : events ((written [.message [0x61] none, .ping none, .message [0x62] none]).take 18) <+:
      [plain [0x61], plain [0x62]] ∧
    [plain [0x61]] <+: events ((written ([.message [0x61] none, .ping none] ++ [.message [0x62] none])).take 18) :=
  ⟨C163_prefix [.message [0x61] none, .ping none, .message [0x62] none] (by simp [messages, OneLine]) _
      (List.take_prefix _ _),
   C163_arrived [.message [0x61] none, .ping none] [.message [0x62] none] (by simp [Succeeded])
      (by simp [messages, OneLine]) _ (List.take_prefix _ _) (by decide +kernel)⟩

end Quark.Sse
