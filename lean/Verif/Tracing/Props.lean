import Verif.Tracing.Model
import Verif.Float.Props

namespace Quark.Tracing
open Quark.Float

/-! ## Specification -/

/-- What an argument says, whatever Go type holds it. -/
inductive Val where
  | str (s : String)
  | num (q : ℚ)
  | other (n : Nat)
deriving DecidableEq

def GoVal.val : GoVal → Val
  | .str s => .str s
  | .int z => .num z
  | .float q => .num q
  | .other n => .other n

/-- Two events are the same: all fields, the kind with its duration or SyncID, and what the arguments say. -/
def Same (a b : Event) : Prop :=
  a.name = b.name ∧ a.type = b.type ∧ a.ts = b.ts ∧ a.pid = b.pid ∧ a.tid = b.tid ∧ a.kind = b.kind ∧
  ∀ k, (a.args k).map GoVal.val = (b.args k).map GoVal.val

/-- An argument survives: integers up to 2^53, and binary64 numbers. -/
def Exact : GoVal → Prop
  | .int z => |z| ≤ 2 ^ 53
  | .float q => roundQ q = q
  | _ => True

/-- The events the constructors make, with arguments that are exact. A plain event is one of the begin, end, instant and
metadata events. -/
inductive Made : Event → Prop where
  | plain (f : Factory) (now : Int) (name type : String) (args : List (String × GoVal))
      (ht : type = "B" ∨ type = "E" ∨ type = "i" ∨ type = "M") (ha : ∀ a ∈ args, Exact a.2) :
      Made (f.newEvent now name type args)
  | complete (f : Factory) (now : Int) (name : String) (args : List (String × GoVal)) (ha : ∀ a ∈ args, Exact a.2) :
      Made (f.newComplete now name args)
  | issuer (f : Factory) (now : Int) (id : Nat) (hi : id ≤ 2 ^ 53) (hn : |now| ≤ 2 ^ 53) : Made (f.newIssuer now id)
  | receiver (f : Factory) (now : Int) (id : Nat) (hi : id ≤ 2 ^ 53) : Made (f.newReceiver now id)

/-! ## Lemmas -/

theorem roundQ_int (z : Int) (h : |z| ≤ 2 ^ 53) : roundQ (z : ℚ) = z := by
  by_cases hz : z = 0
  · subst hz; simpa using roundQ_zero
  by_cases h53 : |z| = 2 ^ 53
  · have h2 : roundQ ((2 : ℚ) ^ (53 : ℤ)) = 2 ^ (53 : ℤ) := roundQ_pow 53 (by norm_num)
    rcases abs_eq (by positivity : (0 : ℤ) ≤ 2 ^ 53) |>.1 h53 with h | h
    · rw [h]; exact_mod_cast h2
    · rw [h]
      have : ((-2 ^ 53 : ℤ) : ℚ) = -((2 : ℚ) ^ (53 : ℤ)) := by norm_num
      rw [this, roundQ_neg, h2]
  have hlt : |z| < 2 ^ 53 := lt_of_le_of_ne h h53
  have hlog : Int.log 2 |(z : ℚ)| < 53 := by
    rw [← Int.lt_zpow_iff_log_lt (by norm_num) (by positivity)]
    exact_mod_cast hlt
  have hpos : 0 ≤ Int.log 2 |(z : ℚ)| := by
    rw [← Int.zpow_le_iff_le_log (by norm_num) (by positivity)]
    have : 1 ≤ |z| := Int.one_le_abs hz
    exact_mod_cast this
  obtain ⟨n, hn⟩ := zpow_dvd (ulpExp (z : ℚ)) 0 (by unfold ulpExp; omega)
  apply roundQ_exact _ (z * n)
  rw [zpow_zero] at hn
  push_cast
  rw [mul_assoc, ← hn, mul_one]

theorem dec_enc {shortest : ℚ → ℚ} (hs : ∀ q, roundQ q = q → roundQ (shortest q) = q) (v : GoVal) (h : Exact v) :
    (decVal (encVal shortest v)).val = v.val := by
  cases v with
  | str s => rfl
  | other n => rfl
  | int z => simp only [encVal, decVal, GoVal.val, roundQ_int z h]
  | float q => simp only [encVal, decVal, GoVal.val, hs q h]

theorem foldl_setArg {args : List (String × GoVal)} (ha : ∀ a ∈ args, Exact a.2) (m : String → Option GoVal)
    (hm : ∀ k v, m k = some v → Exact v) :
    ∀ k v, args.foldl (fun m a => setArg m a.1 a.2) m k = some v → Exact v := by
  induction args generalizing m with
  | nil => exact hm
  | cons a args ih =>
    rw [List.foldl_cons]
    refine ih (fun x hx => ha x (by simp [hx])) _ ?_
    intro k v h
    unfold setArg at h
    split at h
    · simp only [Option.some.injEq] at h; rw [← h]; exact ha a (by simp)
    · exact hm k v h

/-- The arguments of a decoded event. -/
theorem base_args {shortest : ℚ → ℚ} (hs : ∀ q, roundQ q = q → roundQ (shortest q) = q) {e : Event}
    (he : ∀ k v, e.args k = some v → Exact v) (k : String) :
    ((decodeBase (encode shortest e)).args k).map GoVal.val = (e.args k).map GoVal.val := by
  simp only [decodeBase, encode]
  cases h : e.args k with
  | none => rfl
  | some v => simp only [Option.map_some, dec_enc hs v (he k v h)]

theorem toUint64_nat (n : Nat) : toUint64 (n : ℚ) = n := by
  unfold toUint64
  have : ⌊((n : ℤ) : ℚ)⌋ = (n : ℤ) := Int.floor_intCast _
  rw [show ((n : ℚ)) = ((n : ℤ) : ℚ) by norm_num, this]
  rfl

theorem roundQ_nat {n : Nat} (h : n ≤ 2 ^ 53) : roundQ (n : ℚ) = n := by
  have := roundQ_int (n : ℤ) (by rw [abs_of_nonneg (by positivity)]; exact_mod_cast h)
  exact_mod_cast this

theorem decode_other {j : JEvent} (h1 : j.ph ≠ "X") (h2 : j.ph ≠ "c") : decode j = some (decodeBase j) := by
  unfold decode; rw [if_neg h1, if_neg h2]

theorem decode_sync {j : JEvent} (h : j.ph = "c") {q : ℚ} (hs : j.args "sync_id" = some (.num q)) :
    decode j = if (j.args "issue_ts").isSome then some { decodeBase j with kind := .issuer (toUint64 (roundQ q)) }
      else some { decodeBase j with args := setArg (decodeBase j).args "sync_id" (.int (toUint64 (roundQ q))) } := by
  unfold decode
  rw [if_neg (by rw [h]; decide), if_pos h, hs]

/-! ## C62 -/

/-- C62: finalizing is done once: whatever happens later, the event stays as the first `Finalize` left it. -/
theorem C62_finalize_once (e : Event) (now later : Int) :
    ((e.finalize now).finalize later) = e.finalize now ∧ (e.finalize now).finalized = true := by
  obtain ⟨name, type, ts, pid, tid, args, fin, kind⟩ := e
  cases kind <;> cases fin <;> simp [Event.finalize]

/-- C62: what finalizing does: a complete event gets the time since it was made as its duration, an issuer event its
SyncID and the time it was made as arguments and the current time as its own; nothing else changes. -/
theorem C62_finalize_effect (f : Factory) (made now : Int) (name type : String) (args : List (String × GoVal)) (id : Nat) :
    ((f.newComplete made name args).finalize now).kind = .complete (now - made) ∧
    ((f.newComplete made name args).finalize now).ts = made ∧
    ((f.newEvent made name type args).finalize now).ts = made ∧
    ((f.newIssuer made id).finalize now).ts = now ∧
    ((f.newIssuer made id).finalize now).args "issue_ts" = some (.int made) ∧
    ((f.newIssuer made id).finalize now).args "sync_id" = some (.int id) := by
  refine ⟨rfl, rfl, rfl, rfl, ?_, ?_⟩
  · simp [Event.finalize, Factory.newIssuer, Factory.newEvent, setArg]
  · simp [Event.finalize, Factory.newIssuer, Factory.newEvent, setArg]

/-- C62: all the collectors of a `MultiEventCollector` keep the same event, finalized at the time of the first. -/
theorem C62_multi (e : Event) (now : Int) (rest : List Int) :
    multiAdd (now :: rest) e = List.replicate (rest.length + 1) (e.finalize now) := by
  have : ∀ (l : List Int) (x : Event), (∀ t, x.finalize t = x) → multiAdd l x = List.replicate l.length x := by
    intro l
    induction l with
    | nil => intro x _; rfl
    | cons t l ih => intro x hx; simp only [multiAdd, hx t, ih x hx, List.length_cons, List.replicate_succ]
  rw [multiAdd, this rest _ (fun t => (C62_finalize_once e now t).1), List.replicate_succ]

/-- C62: however the goroutines interleave, the collector has of each goroutine exactly the events it has added so far,
in its order, each finalized; and nothing else. -/
theorem C62_order (c : Collector) (hc : c.events = []) (schedule : List Nat) (t : Nat) :
    ((c.run schedule).events.filter (fun x => x.1 == t)).map Prod.snd =
      ((c.todo t).take (schedule.count t)).map (fun x => x.2.finalize x.1) := by
  have key : ∀ (s : List Nat) (c : Collector),
      ((c.run s).events.filter (fun x => x.1 == t)).map Prod.snd =
        (c.events.filter (fun x => x.1 == t)).map Prod.snd ++
        ((c.todo t).take (s.count t)).map (fun x => x.2.finalize x.1) := by
    intro s
    induction s with
    | nil => intro c; simp [Collector.run]
    | cons a s ih =>
      intro c
      have : c.run (a :: s) = (c.add a).run s := rfl
      rw [this, ih]
      unfold Collector.add
      cases h : c.todo a with
      | nil =>
        simp only
        by_cases ha : a = t
        · subst ha; simp [h]
        · rw [List.count_cons_of_ne ha]
      | cons x rest =>
        obtain ⟨now, e⟩ := x
        simp only
        by_cases ha : a = t
        · subst ha
          simp [h, List.filter_append]
        · have ha' : ¬ t = a := fun e => ha e.symm
          simp [ha, ha', List.filter_append, List.count_cons_of_ne]
  have := key schedule c
  rw [hc] at this
  simpa using this

/-- Every event in the collector has been added by some goroutine, and the order between the events of the collector
never changes: what was collected first stays first. -/
theorem C62_append_only (c : Collector) (s s' : List Nat) : (c.run s).events <+: (c.run (s ++ s')).events := by
  have : c.run (s ++ s') = (c.run s).run s' := by simp [Collector.run]
  rw [this]
  clear this
  generalize c.run s = d
  induction s' generalizing d with
  | nil => exact List.prefix_refl _
  | cons a s' ih =>
    refine List.IsPrefix.trans ?_ (ih (d.add a))
    unfold Collector.add
    split
    · exact List.prefix_refl _
    · exact List.prefix_append _ _

/-- C62, part: decoding what was encoded gives back the same event, for the events the constructors make, finalized at
any time, as long as their integers are at most 2^53. `shortest` is any way of writing a float64 that reads back as the
same float64. What is missing: larger integers, see `C62_attempt_id_lost`. -/
theorem C62_round_trip_partial (shortest : ℚ → ℚ) (hs : ∀ q, roundQ q = q → roundQ (shortest q) = q) (e : Event)
    (he : Made e) (now : Int) :
    ∃ d, decode (encode shortest (e.finalize now)) = some d ∧ Same d (e.finalize now) ∧ d.finalized = true := by
  cases he with
  | plain f made name type args ht ha =>
    have hx : type ≠ "X" ∧ type ≠ "c" := by rcases ht with rfl | rfl | rfl | rfl <;> decide
    have hexact : ∀ k v, ((f.newEvent made name type args).finalize now).args k = some v → Exact v :=
      foldl_setArg ha _ (by simp)
    refine ⟨decodeBase (encode shortest ((f.newEvent made name type args).finalize now)), ?_,
      ⟨rfl, rfl, rfl, rfl, rfl, rfl, base_args hs hexact⟩, rfl⟩
    exact decode_other hx.1 hx.2
  | complete f made name args ha =>
    have hexact : ∀ k v, ((f.newComplete made name args).finalize now).args k = some v → Exact v :=
      foldl_setArg ha _ (by simp)
    refine ⟨{ decodeBase (encode shortest ((f.newComplete made name args).finalize now)) with
        kind := .complete (now - made) }, rfl, ⟨rfl, rfl, rfl, rfl, rfl, rfl, ?_⟩, rfl⟩
    exact base_args hs hexact
  | issuer f made id hi hn =>
    have hexact : ∀ k v, ((f.newIssuer made id).finalize now).args k = some v → Exact v := by
      intro k v h
      simp only [Event.finalize, Factory.newIssuer, Factory.newEvent, setArg, List.foldl_nil, Bool.false_eq_true,
        if_false] at h
      split at h
      · simp only [Option.some.injEq] at h; rw [← h]; exact hn
      · split at h
        · simp only [Option.some.injEq] at h; rw [← h]
          show |((id : ℕ) : ℤ)| ≤ 2 ^ 53
          rw [abs_of_nonneg (by positivity)]; exact_mod_cast hi
        · cases h
    have hsync : (encode shortest ((f.newIssuer made id).finalize now)).args "sync_id" = some (.num (id : ℚ)) := by
      simp [encode, Event.finalize, Factory.newIssuer, Factory.newEvent, setArg, encVal]
    have hissue : ((encode shortest ((f.newIssuer made id).finalize now)).args "issue_ts").isSome = true := by
      simp [encode, Event.finalize, Factory.newIssuer, Factory.newEvent, setArg]
    refine ⟨{ decodeBase (encode shortest ((f.newIssuer made id).finalize now)) with kind := .issuer id }, ?_,
      ⟨rfl, rfl, rfl, rfl, rfl, rfl, base_args hs hexact⟩, rfl⟩
    rw [decode_sync rfl hsync]
    simp only [hissue, if_true, roundQ_nat hi, toUint64_nat]
  | receiver f made id hi =>
    have hexact : ∀ k v, ((f.newReceiver made id).finalize now).args k = some v → Exact v := by
      refine foldl_setArg ?_ _ (by simp)
      intro a ha
      rw [List.mem_singleton.1 ha]
      show |((id : ℕ) : ℤ)| ≤ 2 ^ 53
      rw [abs_of_nonneg (by positivity)]; exact_mod_cast hi
    have hsync : (encode shortest ((f.newReceiver made id).finalize now)).args "sync_id" = some (.num (id : ℚ)) := by
      simp [encode, Event.finalize, Factory.newReceiver, Factory.newEvent, setArg, encVal]
    have hissue : ((encode shortest ((f.newReceiver made id).finalize now)).args "issue_ts").isSome = false := by
      simp [encode, Event.finalize, Factory.newReceiver, Factory.newEvent, setArg]
    refine ⟨{ decodeBase (encode shortest ((f.newReceiver made id).finalize now)) with
        args := setArg (decodeBase (encode shortest ((f.newReceiver made id).finalize now))).args "sync_id" (.int id) },
      ?_, ⟨rfl, rfl, rfl, rfl, rfl, rfl, ?_⟩, rfl⟩
    · rw [decode_sync rfl hsync]
      simp only [hissue, Bool.false_eq_true, if_false, roundQ_nat hi, toUint64_nat]
    · intro k
      by_cases hk : k = "sync_id"
      · subst hk
        simp [setArg, Event.finalize, Factory.newReceiver, Factory.newEvent]
      · have := base_args hs hexact k
        simpa [setArg, hk] using this

/-- The same for a whole trace: as many events, in the same order. -/
theorem C62_trace_partial (shortest : ℚ → ℚ) (hs : ∀ q, roundQ q = q → roundQ (shortest q) = q)
    (es : List (Int × Event)) (he : ∀ x ∈ es, Made x.2) :
    ∃ ds, decodeAll (es.map fun x => encode shortest (x.2.finalize x.1)) = some ds ∧
      List.Forall₂ Same ds (es.map fun x => x.2.finalize x.1) := by
  induction es with
  | nil => exact ⟨[], rfl, .nil⟩
  | cons x es ih =>
    obtain ⟨d, h1, h2, -⟩ := C62_round_trip_partial shortest hs x.2 (he x (by simp)) x.1
    obtain ⟨ds, h3, h4⟩ := ih (fun y hy => he y (by simp [hy]))
    exact ⟨d :: ds, by simp only [List.map_cons, decodeAll, h1, h3, Option.map_some], .cons h2 h4⟩

/-- Decoded events are not finalized again when the grader adds them to its own trace: durations and times stay. -/
theorem C62_decoded_is_final (j : JEvent) (d : Event) (h : decode j = some d) (now : Int) : d.finalize now = d := by
  have hf : d.finalized = true := by
    unfold decode at h
    split at h
    · split at h
      · simp only [Option.some.injEq] at h; rw [← h]; rfl
      · cases h
    · split at h
      · split at h
        · split at h <;> (simp only [Option.some.injEq] at h; rw [← h]; rfl)
        · cases h
      · simp only [Option.some.injEq] at h; rw [← h]; rfl
  obtain ⟨name, type, ts, pid, tid, args, fin, kind⟩ := d
  simp only at hf
  subst hf
  cases kind <;> simp [Event.finalize]

/-- Decoding is not total: it panics exactly on a complete event without duration and on a clock synchronization whose
`sync_id` is missing or not a number. -/
theorem C62_decode_panics (j : JEvent) :
    decode j = none ↔ (j.ph = "X" ∧ j.dur = none) ∨ (j.ph = "c" ∧ ∀ q, j.args "sync_id" ≠ some (.num q)) := by
  unfold decode
  by_cases hx : j.ph = "X"
  · have : ¬ ("X" : String) = "c" := by decide
    rw [if_pos hx]
    cases j.dur <;> simp [hx]
  · rw [if_neg hx]
    by_cases hc : j.ph = "c"
    · rw [if_pos hc]
      cases h : j.args "sync_id" with
      | none => simp [hc]
      | some v =>
        cases v with
        | num q => simp only [hx, false_and, false_or, hc, true_and]; split <;> simp
        | str s => simp [hc]
        | other n => simp [hc]
    · rw [if_neg hc]
      simp [hx, hc]

/-- A plain event made with the type of a complete one or of a clock synchronization is accepted by the collector and
encoded, and then crashes whoever decodes the trace. -/
theorem C62_own_trace_can_crash (shortest : ℚ → ℚ) (f : Factory) (made now : Int) (name : String) :
    decode (encode shortest ((f.newEvent made name "X" []).finalize now)) = none ∧
    decode (encode shortest ((f.newEvent made name "c" []).finalize now)) = none := by
  constructor <;> rfl

/-- The full statement of the transmission part of C62 for the events the runner makes: the first is the one `gradeRun`
adds for every run (/repo/cmd/omegaup-runner/main.go:599-605), with the attempt's identifier. -/
def TransmissionExact : Prop :=
  ∀ (f : Factory) (made now : Int) (attemptID : Nat) (hash language : String), attemptID < 2 ^ 64 →
    ∀ d, decode (encode id ((f.newEvent made "grade" "B"
      [("id", .int attemptID), ("input", .str hash), ("language", .str language)]).finalize now)) = some d →
    Same d ((f.newEvent made "grade" "B"
      [("id", .int attemptID), ("input", .str hash), ("language", .str language)]).finalize now)

/-- It is false: identifiers are 63-bit random numbers (/repo/common/run.go:18-21), and the decoder turns them into
float64. For every run whose identifier is not a float64, the grader's trace has another identifier. -/
theorem C62_attempt_id_lost (shortest : ℚ → ℚ) (f : Factory) (made now : Int) (attemptID : Nat) (hash language : String)
    (h : roundQ (attemptID : ℚ) ≠ attemptID) :
    ∀ d, decode (encode shortest ((f.newEvent made "grade" "B"
      [("id", .int attemptID), ("input", .str hash), ("language", .str language)]).finalize now)) = some d →
    d.args "id" = some (.float (roundQ attemptID)) ∧
    ¬ Same d ((f.newEvent made "grade" "B"
      [("id", .int attemptID), ("input", .str hash), ("language", .str language)]).finalize now) := by
  intro d hd
  have hbase : decode (encode shortest ((f.newEvent made "grade" "B"
      [("id", .int attemptID), ("input", .str hash), ("language", .str language)]).finalize now)) =
      some (decodeBase (encode shortest ((f.newEvent made "grade" "B"
      [("id", .int attemptID), ("input", .str hash), ("language", .str language)]).finalize now))) := by
    exact decode_other (by decide : ("B" : String) ≠ "X") (by decide : ("B" : String) ≠ "c")
  rw [hbase, Option.some.injEq] at hd
  have hid : d.args "id" = some (.float (roundQ attemptID)) := by
    rw [← hd]
    simp [decodeBase, encode, Event.finalize, Factory.newEvent, setArg, encVal, decVal]
  refine ⟨hid, ?_⟩
  rintro ⟨-, -, -, -, -, -, hs⟩
  have := hs "id"
  rw [hid] at this
  simp [Event.finalize, Factory.newEvent, setArg, GoVal.val] at this
  exact h this

theorem C62_transmission_false : ¬ TransmissionExact := by
  intro h
  have hne : roundQ (((2 ^ 62 + 1 : ℕ) : ℚ)) ≠ ((2 ^ 62 + 1 : ℕ) : ℚ) := by decide +kernel
  obtain ⟨-, hn⟩ := C62_attempt_id_lost id ⟨1, 2⟩ 0 1 (2 ^ 62 + 1) "hash" "cpp" hne _ rfl
  exact hn (h ⟨1, 2⟩ 0 1 (2 ^ 62 + 1) "hash" "cpp" (by norm_num) _ rfl)

/-! ### Examples -/

example : Made ((Factory.mk 1 2).newComplete 1700000000000000 "1.in" [("language", .str "cpp")]) :=
  .complete _ _ _ _ (by simp [Exact])

example : Made ((Factory.mk 1 2).newIssuer 1700000000000000 4000000000) :=
  .issuer _ _ _ (by norm_num) (by norm_num)

/-- writing a float64 as the number itself -/
example : ∀ q : ℚ, roundQ q = q → roundQ (id q) = q := fun _ h => h

example : let c : Collector := { todo := fun t => if t = 0 then
      [(5, (Factory.mk 1 2).newEvent 1 "run" "B" []), (9, (Factory.mk 1 2).newEvent 8 "run" "E" [])]
      else if t = 1 then [(7, (Factory.mk 1 2).newComplete 3 "1.in" [])] else [] }
    (c.run [0, 1, 0, 1]).events.map (fun x => (x.1, x.2.name, x.2.kind)) =
      [(0, "run", .normal), (1, "1.in", .complete 4), (0, "run", .normal)] := by decide

end Quark.Tracing
