import Verif.TraceFile.Model
import Verif.Wire.Text
import Mathlib.Tactic.SplitIfs
import Mathlib.Data.List.Nodup
import Mathlib.Data.List.Induction

/-!
# The trace file is one event a line (C140)
-/

namespace Quark.TraceFile

/-! ## Specification -/

/-- A text file with the given lines: each of them ends in a newline (byte 10). -/
def fileOf (lines : List Bytes) : Bytes := (lines.map (· ++ [10])).flatten

/-- The line of an event: its encoding and a comma (byte 44). -/
def lineOf (record : Bytes) : Bytes := record ++ [44]

/-- The encoding of the event of call `t`. -/
def recordOf (s : State) (t : Nat) : Bytes := ((s.calls[t]?).map (·.record)).getD []

/-- Call `t` returned nil. -/
def Added (s : State) (t : Nat) : Prop := ∃ c, s.calls[t]? = some c ∧ c.pc = .returned true

/-- Some call failed. -/
def Failed (s : State) : Prop := ∃ c ∈ s.calls, c.pc = .unlock false ∨ c.pc = .returned false

/-! ## Invariant -/

/-- The first `k` bytes of the line of call `t`. -/
def part (s : State) (p : Nat × Nat) : Bytes := (recordOf s p.1 ++ [44, 10]).take p.2

/-- What the goroutine at `pc` says about the parts written. -/
def Told (s : State) (parts : List (Nat × Nat)) (t : Nat) (c : Call) : Prop :=
  match c.pc with
  | .wait => t ∉ parts.map Prod.fst ∧ s.holder ≠ some t
  | .event => t ∉ parts.map Prod.fst ∧ s.holder = some t
  | .separator => s.holder = some t ∧ ∃ ps, parts = ps ++ [(t, c.record.length)]
  | .unlock ok => s.holder = some t ∧ ∃ k, (t, k) ∈ parts ∧ (ok = true → k = c.record.length + 2)
  | .returned ok => s.holder ≠ some t ∧ ∃ k, (t, k) ∈ parts ∧ (ok = true → k = c.record.length + 2)

structure Inv (base : Bytes) (parts : List (Nat × Nat)) (s : State) : Prop where
  nodup : (parts.map Prod.fst).Nodup
  bound : ∀ p ∈ parts, p.1 < s.calls.length
  file : s.file = base ++ (parts.map (part s)).flatten
  told : ∀ t c, s.calls[t]? = some c → Told s parts t c
  holds : ∀ t, s.holder = some t → t < s.calls.length

theorem recordOf_set {s : State} {t : Nat} {c : Call} (hc : s.calls[t]? = some c) (pc : Pc) (h : Option Nat)
    (f : Bytes) (u : Nat) : recordOf { s.goto t c pc with holder := h, file := f } u = recordOf s u := by
  unfold recordOf State.goto
  simp only [List.getElem?_set]
  split_ifs with h1 h2
  · subst h1; simp [hc]
  · subst h1; simp only [List.getElem?_eq_none (Nat.le_of_not_lt h2)]
  · rfl

theorem lookup_goto {s : State} {t : Nat} {c : Call} (hc : s.calls[t]? = some c) (pc : Pc) (h : Option Nat)
    (f : Bytes) {u : Nat} {d : Call} (hd : { s.goto t c pc with holder := h, file := f }.calls[u]? = some d) :
    (u = t ∧ d = { c with pc := pc }) ∨ (u ≠ t ∧ s.calls[u]? = some d) := by
  have hlt := (List.getElem?_eq_some_iff.mp hc).1
  simp only [State.goto, List.getElem?_set] at hd
  by_cases h1 : t = u
  · rw [if_pos h1, if_pos hlt] at hd
    left; exact ⟨h1.symm, (Option.some.inj hd).symm⟩
  · rw [if_neg h1] at hd
    exact .inr ⟨fun h => h1 h.symm, hd⟩

/-- A step of call `t`, which has or gets the lock. -/
theorem Inv.advance {base : Bytes} {parts parts' : List (Nat × Nat)} {s : State} (h : Inv base parts s) {t : Nat}
    {c : Call} (hc : s.calls[t]? = some c) (hold : s.holder = none ∨ s.holder = some t) {pc : Pc} {hd : Option Nat}
    (hhd : hd = none ∨ hd = some t) {f : Bytes}
    (hmem : ∀ u, u ≠ t → (∀ k, (u, k) ∈ parts' ↔ (u, k) ∈ parts))
    (hnd : (parts'.map Prod.fst).Nodup)
    (hb : ∀ p ∈ parts', p.1 < s.calls.length)
    (hf : f = base ++ (parts'.map (part s)).flatten)
    (ht : Told { s.goto t c pc with holder := hd, file := f } parts' t { c with pc := pc }) :
    Inv base parts' { s.goto t c pc with holder := hd, file := f } := by
  have hlt := (List.getElem?_eq_some_iff.mp hc).1
  have hnot : ∀ u, u ≠ t → s.holder ≠ some u := by
    intro u hu he
    rcases hold with h1 | h1 <;> rw [h1] at he
    · cases he
    · exact hu (Option.some.inj he).symm
  have hnot' : ∀ u, u ≠ t → hd ≠ some u := by
    intro u hu he
    rcases hhd with h1 | h1 <;> rw [h1] at he
    · cases he
    · exact hu (Option.some.inj he).symm
  refine ⟨hnd, by simpa [State.goto] using hb, ?_, ?_, ?_⟩
  · simp only
    rw [hf]
    congr 2
    exact List.map_congr_left fun p _ => by unfold part; rw [recordOf_set hc]
  · intro u d hd'
    rcases lookup_goto hc pc hd f hd' with ⟨rfl, rfl⟩ | ⟨hu, hd'⟩
    · exact ht
    · have := h.told u d hd'
      have hfst : u ∈ parts'.map Prod.fst ↔ u ∈ parts.map Prod.fst := by
        constructor <;> intro hm <;> obtain ⟨⟨v, k⟩, hp, rfl⟩ := List.mem_map.mp hm
        · exact List.mem_map.mpr ⟨(v, k), (hmem v hu k).mp hp, rfl⟩
        · exact List.mem_map.mpr ⟨(v, k), (hmem v hu k).mpr hp, rfl⟩
      unfold Told at *
      split at this <;> simp only at *
      · exact ⟨by rw [hfst]; exact this.1, hnot' u hu⟩
      · exact absurd this.2 (hnot u hu)
      · exact absurd this.1 (hnot u hu)
      · exact absurd this.1 (hnot u hu)
      · obtain ⟨-, k, h1, h2⟩ := this
        exact ⟨hnot' u hu, k, (hmem u hu k).mpr h1, h2⟩
  · intro u hu
    rcases hhd with h1 | h1 <;> simp only [h1] at hu
    · cases hu
    · cases hu; simpa [State.goto] using hlt

theorem Inv.opened (before : Bytes) : Inv (before ++ [91, 10]) [] (opened before) :=
  ⟨by simp, by simp, by simp [TraceFile.opened, header], by simp [TraceFile.opened], by simp [TraceFile.opened]⟩

theorem take_le_append {a b : Bytes} {n : Nat} : (a ++ b).take (min n a.length) = a.take n := by
  rw [List.take_append_of_le_length (Nat.min_le_right _ _)]
  rcases Nat.le_total n a.length with h | h
  · rw [Nat.min_eq_left h]
  · rw [Nat.min_eq_right h, List.take_of_length_le h, List.take_length]

theorem recordOf_eq {s : State} {t : Nat} {c : Call} (hc : s.calls[t]? = some c) : recordOf s t = c.record := by
  simp [recordOf, hc]

/-- Writing (part of) the event. -/
theorem Inv.writeEvent {base : Bytes} {parts : List (Nat × Nat)} {s : State} (h : Inv base parts s) {t : Nat}
    {c : Call} (hc : s.calls[t]? = some c) (hpc : c.pc = .event) (pc : Pc) (n : Nat)
    (hp : pc = .separator ∧ c.record.length ≤ n ∨ pc = .unlock false) :
    Inv base (parts ++ [(t, min n c.record.length)]) { s.goto t c pc with file := s.file ++ c.record.take n } := by
  have hlt := (List.getElem?_eq_some_iff.mp hc).1
  have ht := h.told t c hc
  simp only [Told, hpc] at ht
  refine h.advance (hd := s.holder) hc (.inr ht.2) (.inr ht.2) ?_ ?_ ?_ ?_ ?_
  · intro u hu k; simp [hu]
  · rw [List.map_append, List.nodup_append]
    refine ⟨h.nodup, by simp, ?_⟩
    intro a ha b hb
    simp at hb
    rintro rfl; subst hb; exact ht.1 ha
  · intro p hp
    rcases List.mem_append.mp hp with hp | hp
    · exact h.bound p hp
    · rw [List.mem_singleton.mp hp]; exact hlt
  · rw [h.file]
    simp [part, recordOf_eq hc, take_le_append]
  · rcases hp with ⟨rfl, hn⟩ | rfl
    · simp only [Told]
      exact ⟨ht.2, parts, by rw [Nat.min_eq_right hn]⟩
    · simp only [Told]
      exact ⟨ht.2, _, List.mem_append_right _ (List.mem_singleton.mpr rfl), by simp⟩

/-- Writing (part of) the separator. -/
theorem Inv.writeSeparator {base : Bytes} {parts : List (Nat × Nat)} {s : State} (h : Inv base parts s) {t : Nat}
    {c : Call} (hc : s.calls[t]? = some c) (hpc : c.pc = .separator) (ok : Bool) (n : Nat) (hok : ok = true → 2 ≤ n) :
    ∃ parts', Inv base parts' { s.goto t c (.unlock ok) with file := s.file ++ separator.take n } := by
  have hlt := (List.getElem?_eq_some_iff.mp hc).1
  have ht := h.told t c hc
  simp only [Told, hpc] at ht
  obtain ⟨hh, ps, rfl⟩ := ht
  have hnd := h.nodup
  rw [List.map_append, List.nodup_append] at hnd
  refine ⟨ps ++ [(t, c.record.length + min n 2)], h.advance (hd := s.holder) hc (.inr hh) (.inr hh) ?_ ?_ ?_ ?_ ?_⟩
  · intro u hu k; simp [hu]
  · rw [List.map_append, List.nodup_append]; exact hnd
  · intro p hp
    rcases List.mem_append.mp hp with hp | hp
    · exact h.bound p (List.mem_append_left _ hp)
    · rw [List.mem_singleton.mp hp]; exact hlt
  · rw [h.file]
    have e1 : part s (t, c.record.length) = c.record := by simp [part, recordOf_eq hc]
    have e2 : part s (t, c.record.length + min n 2) = c.record ++ separator.take n := by
      simp only [part, recordOf_eq hc]
      rw [List.take_length_add_append]
      congr 1
      match n with
      | 0 => rfl
      | 1 => rfl
      | n + 2 => simp [separator]
    simp only [List.map_append, List.map_cons, List.map_nil, List.flatten_append, List.flatten_cons,
      List.flatten_nil, List.append_nil, e1, e2, List.append_assoc]
  · simp only [Told]
    refine ⟨hh, _, List.mem_append_right _ (List.mem_singleton.mpr rfl), fun h => ?_⟩
    have := hok h; omega

theorem Inv.step {base : Bytes} {parts : List (Nat × Nat)} {s s' : State} {a : Act} (h : Inv base parts s)
    (hs : step s a = some s') : ∃ parts', Inv base parts' s' := by
  cases a with
  | add r =>
    cases hs
    refine ⟨parts, h.nodup, fun p hp => ?_, ?_, ?_, ?_⟩
    · have := h.bound p hp; simp; omega
    · simp only
      rw [h.file]
      congr 2
      refine List.map_congr_left fun p hp => ?_
      unfold part recordOf
      rw [List.getElem?_append_left (h.bound p hp)]
    · intro t c hc
      by_cases hlt : t < s.calls.length
      · rw [List.getElem?_append_left hlt] at hc
        exact h.told t c hc
      · rw [List.getElem?_append_right (Nat.le_of_not_lt hlt)] at hc
        have hc := List.mem_singleton.mp (List.mem_of_getElem? hc)
        subst hc
        refine ⟨fun hm => ?_, fun hm => hlt (h.holds t hm)⟩
        obtain ⟨p, hp, rfl⟩ := List.mem_map.mp hm
        exact hlt (h.bound p hp)
    · intro t ht
      have := h.holds t ht; simp; omega
  | lock t =>
    simp only [TraceFile.step] at hs
    split at hs
    · rename_i c hc hh
      split_ifs at hs with hpc
      cases hs
      have ht := h.told t c hc
      simp only [Told, hpc] at ht
      exact ⟨parts, h.advance (f := s.file) hc (.inl hh) (.inr rfl) (by simp) h.nodup h.bound h.file ⟨ht.1, rfl⟩⟩
    · cases hs
  | write t =>
    simp only [TraceFile.step] at hs
    split at hs
    · rename_i c hc
      split_ifs at hs with h1 h2 h3
      · cases hs
        have := h.writeEvent hc h2 .separator c.record.length (.inl ⟨rfl, Nat.le_refl _⟩)
        rw [List.take_length] at this
        exact ⟨_, this⟩
      · cases hs
        exact h.writeSeparator hc h3 true 2 (by simp)
    · cases hs
  | fail t n =>
    simp only [TraceFile.step] at hs
    split at hs
    · rename_i c hc
      split_ifs at hs with h1 h2 h3
      · cases hs
        exact ⟨_, h.writeEvent hc h2 (.unlock false) n (.inr rfl)⟩
      · cases hs
        exact h.writeSeparator hc h3 false n (by simp)
    · cases hs
  | unlock t =>
    simp only [TraceFile.step] at hs
    split at hs
    · rename_i c hc
      split at hs
      · rename_i ok hpc
        cases hs
        have ht := h.told t c hc
        simp only [Told, hpc] at ht
        exact ⟨parts, h.advance (f := s.file) hc (.inr ht.1) (.inl rfl) (by simp) h.nodup h.bound h.file
          ⟨by simp, ht.2⟩⟩
      · cases hs
    · cases hs
  | close =>
    cases hs
    exact ⟨parts, h.nodup, h.bound, h.file, h.told, h.holds⟩

theorem Steps.inv {before : Bytes} {s : State} (h : Steps (TraceFile.opened before) s) :
    ∃ parts, Inv (before ++ [91, 10]) parts s := by
  generalize hs0 : TraceFile.opened before = s0 at h
  induction h with
  | refl => subst hs0; exact ⟨[], .opened before⟩
  | step _ hs ih =>
    obtain ⟨parts, hi⟩ := ih
    exact hi.step hs

/-! ## Theorems -/

/-- C140, everything that can be in the file, whatever fails: the header, and then, for every call that got to
write, once, a beginning of its line. The line is whole if the call returned nil. -/
theorem C140_pieces {before : Bytes} {s : State} (h : Steps (opened before) s) :
    ∃ parts : List (Nat × Nat), (parts.map Prod.fst).Nodup ∧
      s.file = before ++ [91, 10] ++ (parts.map fun p => (recordOf s p.1 ++ [44, 10]).take p.2).flatten ∧
      ∀ t, Added s t → ∃ k, (t, k) ∈ parts ∧ (recordOf s t ++ [44, 10]).take k = lineOf (recordOf s t) ++ [10] := by
  obtain ⟨parts, hi⟩ := h.inv
  refine ⟨parts, hi.nodup, hi.file, ?_⟩
  rintro t ⟨c, hc, hpc⟩
  have := hi.told t c hc
  simp only [Told, hpc] at this
  obtain ⟨-, k, hk, h2⟩ := this
  refine ⟨k, hk, ?_⟩
  rw [h2 trivial, recordOf_eq hc, List.take_of_length_le (by simp)]
  simp [lineOf]

/-- C140: while no write fails, and when nobody is in the middle of one, a file that was empty when opened
has the line `[` and then one line for each event added so far, in some order. -/
theorem C140_trace_file {s : State} (h : Steps (opened []) s) (hok : ¬ Failed s) (hidle : s.holder = none) :
    ∃ order : List Nat, order.Nodup ∧ (∀ t, t ∈ order ↔ Added s t) ∧
      s.file = fileOf ([91] :: order.map fun t => lineOf (recordOf s t)) := by
  obtain ⟨parts, hi⟩ := h.inv
  have hret : ∀ t c, s.calls[t]? = some c → c.pc = .wait ∧ t ∉ parts.map Prod.fst ∨
      c.pc = .returned true ∧ (t, c.record.length + 2) ∈ parts := by
    intro t c hc
    have := hi.told t c hc
    have hmem := List.mem_of_getElem? hc
    cases hpc : c.pc with
    | wait => simp only [Told, hpc] at this; exact .inl ⟨rfl, this.1⟩
    | event => simp only [Told, hpc, hidle] at this; cases this.2
    | separator => simp only [Told, hpc, hidle] at this; cases this.1
    | unlock ok => simp only [Told, hpc, hidle] at this; cases this.1
    | returned ok =>
      cases ok with
      | false => exact absurd ⟨c, hmem, .inr hpc⟩ hok
      | true =>
        simp only [Told, hpc] at this
        obtain ⟨-, k, h1, h2⟩ := this
        rw [h2 trivial] at h1
        exact .inr ⟨rfl, h1⟩
  have hfull : ∀ p ∈ parts, part s p = lineOf (recordOf s p.1) ++ [10] := by
    intro p hp
    obtain ⟨c, hc⟩ : ∃ c, s.calls[p.1]? = some c := ⟨_, List.getElem?_eq_getElem (hi.bound p hp)⟩
    rcases hret p.1 c hc with ⟨-, h1⟩ | ⟨-, h1⟩
    · exact absurd (List.mem_map.mpr ⟨p, hp, rfl⟩) h1
    · have hinj := List.inj_on_of_nodup_map hi.nodup hp h1 rfl
      rw [hinj]
      simp only [part, recordOf_eq hc]
      rw [List.take_of_length_le (by simp)]
      simp [lineOf]
  refine ⟨parts.map Prod.fst, hi.nodup, fun t => ⟨fun ht => ?_, ?_⟩, ?_⟩
  · obtain ⟨p, hp, rfl⟩ := List.mem_map.mp ht
    obtain ⟨c, hc⟩ : ∃ c, s.calls[p.1]? = some c := ⟨_, List.getElem?_eq_getElem (hi.bound p hp)⟩
    rcases hret p.1 c hc with ⟨-, h1⟩ | ⟨h1, -⟩
    · exact absurd ht h1
    · exact ⟨c, hc, h1⟩
  · rintro ⟨c, hc, hpc⟩
    rcases hret t c hc with ⟨h1, -⟩ | ⟨-, h1⟩
    · rw [hpc] at h1; cases h1
    · exact List.mem_map.mpr ⟨_, h1, rfl⟩
  · rw [hi.file, List.map_congr_left hfull]
    simp [fileOf, List.map_map, Function.comp_def]

/-- What was written is never changed. -/
theorem C140_append_only {s s' : State} (h : Steps s s') : s.file <+: s'.file := by
  induction h with
  | refl => exact List.prefix_refl _
  | @step s' s'' a _ hs ih =>
    refine ih.trans ?_
    cases a with
    | add => cases hs; exact List.prefix_refl _
    | close => cases hs; exact List.prefix_refl _
    | lock t =>
      simp only [TraceFile.step] at hs
      split at hs
      · split_ifs at hs; cases hs; exact List.prefix_refl _
      · cases hs
    | unlock t =>
      simp only [TraceFile.step] at hs
      split at hs
      · split at hs
        · cases hs; exact List.prefix_refl _
        · cases hs
      · cases hs
    | write t =>
      simp only [TraceFile.step] at hs
      split at hs
      · split_ifs at hs <;> cases hs <;> exact List.prefix_append _ _
      · cases hs
    | fail t n =>
      simp only [TraceFile.step] at hs
      split at hs
      · split_ifs at hs <;> cases hs <;> exact List.prefix_append _ _
      · cases hs

/-- The lines of a file are determined by it. -/
theorem fileOf_prefix {a b : List Bytes} (ha : ∀ l ∈ a, (10 : UInt8) ∉ l) (hb : ∀ l ∈ b, (10 : UInt8) ∉ l)
    (h : fileOf a <+: fileOf b) : a <+: b := by
  have cut : ∀ {x y u v : Bytes}, (10 : UInt8) ∉ x → (10 : UInt8) ∉ y → x ++ 10 :: u = y ++ 10 :: v → x = y ∧ u = v := by
    intro x
    induction x with
    | nil =>
      intro y u v _ hy h
      cases y with
      | nil => simpa using h
      | cons c y => simp at h; exact absurd (List.mem_cons.mpr (.inl h.1)) hy
    | cons c x ih =>
      intro y u v hx hy h
      cases y with
      | nil => simp at h; exact absurd (List.mem_cons.mpr (.inl h.1.symm)) hx
      | cons d y =>
        simp only [List.cons_append, List.cons.injEq] at h
        obtain ⟨h1, h2⟩ := ih (fun hm => hx (List.mem_cons_of_mem _ hm)) (fun hm => hy (List.mem_cons_of_mem _ hm)) h.2
        exact ⟨by rw [h.1, h1], h2⟩
  induction a generalizing b with
  | nil => exact List.nil_prefix
  | cons x a ih =>
    obtain ⟨w, hw⟩ := h
    cases b with
    | nil => simp [fileOf] at hw
    | cons y b =>
      have : x ++ 10 :: (fileOf a ++ w) = y ++ 10 :: fileOf b := by
        simpa [fileOf] using hw
      obtain ⟨rfl, h2⟩ := cut (ha x (by simp)) (hb y (by simp)) this
      have := ih (fun l hl => ha l (by simp [hl])) (fun l hl => hb l (by simp [hl])) ⟨w, h2⟩
      exact (List.prefix_cons_inj _).mpr this

theorem Steps.trans {s s' s'' : State} (h : Steps s s') (h' : Steps s' s'') : Steps s s'' := by
  induction h' with
  | refl => exact h
  | step _ hs ih => exact .step ih hs

/-- C140: the events are there in the order in which they were added: what was added by the time of `s` comes
first in `s'`, in the same order. -/
theorem C140_in_order {s s' : State} (h : Steps (opened []) s) (h' : Steps s s') (hok : ¬ Failed s)
    (hok' : ¬ Failed s') (hidle : s.holder = none) (hidle' : s'.holder = none)
    (hnl : ∀ c ∈ s.calls, (10 : UInt8) ∉ c.record) (hnl' : ∀ c ∈ s'.calls, (10 : UInt8) ∉ c.record) :
    ∃ order order' : List Nat, order.Nodup ∧ order'.Nodup ∧ (∀ t, t ∈ order ↔ Added s t) ∧
      (∀ t, t ∈ order' ↔ Added s' t) ∧
      s.file = fileOf ([91] :: order.map fun t => lineOf (recordOf s t)) ∧
      s'.file = fileOf ([91] :: order'.map fun t => lineOf (recordOf s' t)) ∧
      (order.map fun t => recordOf s t) <+: (order'.map fun t => recordOf s' t) := by
  obtain ⟨o, h1, h2, h3⟩ := C140_trace_file h hok hidle
  obtain ⟨o', h1', h2', h3'⟩ := C140_trace_file (h.trans h') hok' hidle'
  refine ⟨o, o', h1, h1', h2, h2', h3, h3', ?_⟩
  have noNl : ∀ (s : State) (o : List Nat), (∀ c ∈ s.calls, (10 : UInt8) ∉ c.record) →
      ∀ l ∈ ([91] : Bytes) :: o.map (fun t => lineOf (recordOf s t)), (10 : UInt8) ∉ l := by
    intro s o hs l hl
    rcases List.mem_cons.mp hl with rfl | hl
    · decide
    · obtain ⟨t, -, rfl⟩ := List.mem_map.mp hl
      unfold lineOf recordOf
      cases hc : s.calls[t]? with
      | none => decide
      | some c =>
        intro hm
        rcases List.mem_append.mp hm with hm | hm
        · exact hs c (List.mem_of_getElem? hc) hm
        · exact absurd hm (by decide)
  have hp := C140_append_only h'
  rw [h3, h3'] at hp
  have := (List.prefix_cons_inj _).mp (fileOf_prefix (noNl s o hnl) (noNl s' o' hnl') hp)
  have strip : ∀ {a b : List Bytes}, a.map lineOf <+: b.map lineOf → a <+: b := by
    intro a b hab
    have := hab.map List.dropLast
    simpa [List.map_map, Function.comp_def, lineOf] using this
  apply strip
  simpa [List.map_map, Function.comp_def] using this

theorem encodeRune_no_newline {r : Nat} (h : 0x80 ≤ r) (hr : Wire.IsScalar r) : (10 : UInt8) ∉ Wire.encodeRune r := by
  have key : ∀ n : Nat, 11 ≤ n → n < 256 → (10 : UInt8) ≠ UInt8.ofNat n := by
    intro n h1 h2 he
    have := congrArg UInt8.toNat he
    rw [Wire.toNat_ofNat_lt h2] at this
    have : (10 : UInt8).toNat = 10 := rfl
    omega
  have hlt : r < 0x110000 := by rcases hr with h | h <;> omega
  unfold Wire.encodeRune
  split_ifs with h1 h2 h3 h4
  · omega
  · simp only [List.mem_cons, List.not_mem_nil, or_false, not_or]
    exact ⟨key _ (by omega) (by omega), key _ (by omega) (by omega)⟩
  · decide
  · simp only [List.mem_cons, List.not_mem_nil, or_false, not_or]
    exact ⟨key _ (by omega) (by omega), key _ (by omega) (by omega), key _ (by omega) (by omega)⟩
  · simp only [List.mem_cons, List.not_mem_nil, or_false, not_or]
    exact ⟨key _ (by omega) (by omega), key _ (by omega) (by omega), key _ (by omega) (by omega),
      key _ (by omega) (by omega)⟩

/-- A string inside an encoded event has no newline: `encoding/json` escapes it. -/
theorem C140_strings_have_no_newline (t : Bytes) : (10 : UInt8) ∉ Wire.quote t := by
  have hex : ∀ n, n < 16 → (10 : UInt8) ≠ Wire.hexDigit n := by decide
  induction hn : t.length using Nat.strongRecOn generalizing t with
  | _ n ih =>
    match t with
    | [] => simp [Wire.quote]
    | b :: rest =>
      have hpos := Tokenizer.decodeRune_pos b rest
      have hlr : rest.length < n := by rw [← hn]; simp
      have hld : ((b :: rest).drop (Tokenizer.decodeRune (b :: rest)).2).length < n := by
        rw [← hn]; simp only [List.length_drop, List.length_cons]; omega
      rw [Wire.quote]
      by_cases hb : b.toNat < 0x80
      · rw [if_pos hb, List.mem_append, not_or]
        refine ⟨?_, ih _ hlr rest rfl⟩
        have all : ∀ n : Fin 128, (10 : UInt8) ∉ Wire.quoteAscii (UInt8.ofNat n) := by decide +kernel
        have := all ⟨b.toNat, hb⟩
        rwa [Wire.ofNat_eq rfl] at this
      · rw [if_neg hb]
        simp only
        split
        · rw [List.mem_append, not_or]
          exact ⟨by decide, ih _ hlr rest rfl⟩
        · rename_i hv
          obtain ⟨hsc, henc⟩ := Wire.encode_decode b rest hv
          split
          · rw [List.mem_append, not_or]
            refine ⟨?_, ih _ hld _ rfl⟩
            simp only [List.mem_cons, List.not_mem_nil, or_false, not_or]
            exact ⟨by decide, by decide, by decide, by decide, by decide, hex _ (by omega)⟩
          · rw [List.mem_append, not_or]
            refine ⟨?_, ih _ hld _ rfl⟩
            rw [← henc]
            refine encodeRune_no_newline ?_ hsc
            by_contra hlt
            unfold Wire.encodeRune at henc
            rw [if_pos (by omega)] at henc
            obtain ⟨m, hm⟩ : ∃ m, (Tokenizer.decodeRune (b :: rest)).2 = m + 1 := ⟨_, (Nat.succ_pred_eq_of_pos hpos).symm⟩
            rw [hm, List.take_succ_cons] at henc
            have := congrArg UInt8.toNat (List.cons.inj henc).1
            rw [Wire.toNat_ofNat_lt (by omega)] at this
            omega

/-! ## Examples -/

/-- The steps of one call that succeeds. -/
def whole (t : Nat) : List Act := [.lock t, .write t, .write t, .unlock t]

/-- Run a schedule. -/
def run (s : State) (acts : List Act) : Option State := acts.foldl (fun s a => s.bind (step · a)) (some s)

theorem steps_of_run {s s' : State} {acts : List Act} (h : run s acts = some s') : Steps s s' := by
  induction acts using List.reverseRecOn generalizing s' with
  | nil => cases h; exact .refl
  | append_singleton acts a ih =>
    rw [run, List.foldl_append] at h
    obtain ⟨s1, h1, h2⟩ := Option.bind_eq_some_iff.mp h
    exact .step (ih h1) h2

/-- Two calls at once: the second one, which takes the lock first, comes first; the third has not got it yet. -/
example : ∃ s, Steps (opened []) s ∧ ¬ Failed s ∧ s.holder = none ∧ Added s 0 ∧ Added s 1 ∧ ¬ Added s 2 ∧
    s.file = fileOf [[91], [66, 44], [65, 44]] := by
  refine ⟨_, steps_of_run (acts := [.add [65], .add [66]] ++ whole 1 ++ [.add [67]] ++ whole 0) rfl, ?_, rfl,
    ⟨_, rfl, rfl⟩, ⟨_, rfl, rfl⟩, ?_, by decide⟩
  · rintro ⟨c, hc, h⟩
    revert c
    decide
  · rintro ⟨c, hc, h⟩
    cases hc
    cases h

/-- A write that fails in the middle of an event tears the next event's line as well, although that call
returns nil: the line is not the line of any event. -/
theorem C140_failure_tears : ∃ s, Steps (opened []) s ∧ s.holder = none ∧ Added s 1 ∧
    recordOf s 0 = [65, 66] ∧ recordOf s 1 = [67] ∧ s.file = fileOf [[91], [65, 67, 44]] :=
  ⟨_, steps_of_run (acts := [.add [65, 66], .lock 0, .fail 0 1, .unlock 0, .add [67]] ++ whole 1) rfl, rfl,
    ⟨_, rfl, rfl⟩, rfl, rfl, by decide⟩

/-- A file that was not empty gets a second header in the middle: it is not one list any more. -/
theorem C140_reopened_has_second_header : ∃ before s, before = fileOf [[91], [65, 44]] ∧ Steps (opened before) s ∧
    ¬ Failed s ∧ s.holder = none ∧ s.file = fileOf [[91], [65, 44], [91], [66, 44]] := by
  refine ⟨_, _, rfl, steps_of_run (acts := [.add [66]] ++ whole 0) rfl, ?_, rfl, by decide⟩
  rintro ⟨c, hc, h⟩
  revert c
  decide

/-- The hypotheses of `C140_in_order`: between the two moments two more calls, one of them going on. -/
example : ∃ s s', Steps (opened []) s ∧ Steps s s' ∧ ¬ Failed s ∧ ¬ Failed s' ∧ s.holder = none ∧ s'.holder = none ∧
    (∀ c ∈ s.calls, (10 : UInt8) ∉ c.record) ∧ (∀ c ∈ s'.calls, (10 : UInt8) ∉ c.record) ∧
    s.file = fileOf [[91], [66, 44]] ∧ s'.file = fileOf [[91], [66, 44], [67, 44], [65, 44]] := by
  refine ⟨_, _, steps_of_run (acts := [.add [65], .add [66]] ++ whole 1) rfl,
    steps_of_run (acts := [.add [67]] ++ whole 2 ++ whole 0) rfl, ?_, ?_, rfl, rfl, by decide, by decide, by decide,
    by decide⟩
  all_goals
    rintro ⟨c, hc, h⟩
    revert c
    decide

end Quark.TraceFile
