import Verif.Conversation.Ends
import Verif.Literal.Exact
import Mathlib.Tactic.Linarith

/-!
# What becomes of a request that is not accepted (C158)
-/

namespace Quark.Conversation

section
variable {ι : Type} {R : Literal.Runtime} {T : Literal.Tools ι} {r : Request}

/-! ## Specification -/

/-- The problem is one C129 calls acceptable. -/
def Acceptable (T : Literal.Tools ι) (i : Literal.Input) : Prop :=
  (i.cases ≠ [] ∧ (∀ e ∈ i.cases, ∃ c w, e.2 = some c ∧ c.weight = some w ∧ 0 ≤ w) ∧
    ∃ e ∈ i.cases, ∃ c w, e.2 = some c ∧ c.weight = some w ∧ 0 < w) ∧
  Literal.ValidatorAllowed i.validator ∧ Literal.InteractiveAllowed T i.interactive

/-- No case is null, and each has a weight. -/
def NoNulls (i : Literal.Input) : Prop := ∀ e ∈ i.cases, ∃ c w, e.2 = some c ∧ c.weight = some w

/-- The sum of the weights. -/
def totalOf (i : Literal.Input) : ℚ := (i.cases.map fun e => ((e.2.bind Literal.Case.weight).getD 0 : ℚ)).sum

/-- The request is one for this problem: POST, JSON, of the right shape, with an `input`. -/
def Asks (r : Request) (i : Literal.Input) : Prop :=
  r.method = "POST" ∧ r.contentType = "application/json" ∧ ∃ b, r.body = some b ∧ b.input = some i

/-- Nothing of the run is left: it was never queued, there is no directory and no token works. -/
def NothingLeft (s : State) : Prop := s.queued = false ∧ s.dir = none ∧ s.kept = false

/-- C158: every request gets an answer. -/
def AlwaysAnswered (R : Literal.Runtime) (T : Literal.Tools ι) : Prop :=
  ∀ r acts s, from0 R T r acts = some s → s.head ≠ some .dropped

/-! ## Proof -/

theorem maxScore_some (l : List (Literal.Str × Option Literal.Case))
    (h : ∀ e ∈ l, ∃ c w, e.2 = some c ∧ c.weight = some w) :
    maxScore l = some (l.map fun e => ((e.2.bind Literal.Case.weight).getD 0 : ℚ)).sum := by
  induction l with
  | nil => rfl
  | cons e l ih =>
    obtain ⟨n, oc⟩ := e
    obtain ⟨c, w, rfl, hw⟩ := h _ List.mem_cons_self
    have := ih (fun e he => h e (List.mem_cons_of_mem _ he))
    simp [maxScore, hw, this]

theorem maxScore_none (l : List (Literal.Str × Option Literal.Case))
    (h : ¬ ∀ e ∈ l, ∃ c w, e.2 = some c ∧ c.weight = some w) : maxScore l = none := by
  induction l with
  | nil => simp at h
  | cons e l ih =>
    obtain ⟨n, oc⟩ := e
    cases oc with
    | none => rfl
    | some c =>
      cases hw : c.weight with
      | none => simp [maxScore, hw]
      | some w =>
        simp only [maxScore, hw, Option.map_eq_none_iff]
        apply ih
        intro hall
        apply h
        intro e he
        rcases List.mem_cons.1 he with rfl | he
        · exact ⟨c, w, rfl, hw⟩
        · exact hall e he

theorem sumWeights_no_panic (l : List (Literal.Str × Option Literal.Case)) (q : ℚ)
    (h : ∀ e ∈ l, ∃ c w, e.2 = some c ∧ c.weight = some w) : Literal.sumWeights q l ≠ .panic := by
  induction l generalizing q with
  | nil => simp [Literal.sumWeights]
  | cons e l ih =>
    obtain ⟨n, oc⟩ := e
    obtain ⟨c, w, rfl, hw⟩ := h _ List.mem_cons_self
    simp only [Literal.sumWeights, hw]
    split
    · simp
    · exact ih _ (fun e he => h e (List.mem_cons_of_mem _ he))

theorem bind_no_panic {α β : Type} {x : Literal.Res α} {f : α → Literal.Res β} (hx : x ≠ .panic)
    (hf : ∀ a, f a ≠ .panic) : x.bind f ≠ .panic := by
  cases x with
  | panic => exact absurd rfl hx
  | err e => simp [Literal.Res.bind]
  | ok a => exact hf a

theorem new_no_panic {i : Literal.Input} (h : NoNulls i) : Literal.newLiteralInput R T i ≠ .panic := by
  unfold Literal.newLiteralInput
  refine bind_no_panic ?_ fun a => ?_
  · unfold Literal.validatorStep
    dsimp only
    (repeat' split) <;> simp
  · refine bind_no_panic ?_ fun b => bind_no_panic ?_ fun c => ?_
    · unfold Literal.casesStep
      split
      · simp
      · refine bind_no_panic (sumWeights_no_panic _ _ fun e he => h e ((R.range_perm 0 i.cases).mem_iff.1 he)) fun q => ?_
        split <;> simp
    · unfold Literal.interactiveStep
      dsimp only
      (repeat' split) <;> simp
    · dsimp only
      (repeat' split) <;> simp

theorem acceptable_no_nulls {i : Literal.Input} (h : Acceptable T i) : NoNulls i := by
  intro e he
  obtain ⟨c, w, h1, h2, -⟩ := h.1.2.1 e he
  exact ⟨c, w, h1, h2⟩

/-! ## C158 -/

/-- C158: what the first step of the handler makes of a request. -/
theorem what_is_answered (hmap : ∀ b i, r.body = some b → b.input = some i → Literal.IsMap i.cases)
    (hma : ∀ x, T.marshal x ≠ none) {s : State} {c : Choice} (h : from0 R T r [.handler c] = some s) :
    (r.method ≠ "POST" → s.head = some (.plain 405)) ∧
    (r.method = "POST" → r.contentType ≠ "application/json" ∨ r.body = none → s.head = some (.plain 400)) ∧
    (∀ i, Asks r i → Acceptable T i → s.head = none ∧ s.pc ≠ .done) ∧
    (∀ i, Asks r i → NoNulls i → ¬ Acceptable T i → s.head = some (.parts none) ∧ s.ended = true ∧
      ∃ e, s.heard = [.refused "CE" 0 (totalOf i) e]) ∧
    (r.method = "POST" → r.contentType = "application/json" → ∀ b, r.body = some b →
      (b.input = none ∨ ∃ i, b.input = some i ∧ ¬ NoNulls i) → s.head = some .dropped) := by
  have e : s = front R T r {} := by
    unfold from0 at h
    simp only [run, step] at h
    unfold handle at h
    simpa using h.symm
  subst e
  have acc : ∀ i, Asks r i → ((∃ o, Literal.newLiteralInput R T i = .ok o) ↔ Acceptable T i) := by
    rintro i ⟨-, -, b, hb, hi⟩
    exact Literal.C129_accepted_iff R T i (hmap b i hb hi) hma
  have shape : ∀ i, Asks r i → NoNulls i → front R T r {} =
      (match Literal.newLiteralInput R T i with
        | .panic => { pc := .done, head := some .dropped }
        | .err e => { say { head := some (.parts none) } (.refused "CE" 0 (totalOf i) e) with pc := .done, ended := true }
        | .ok _ => { pc := .input }) := by
    rintro i ⟨h1, h2, b, hb, hi⟩ hn
    unfold front
    rw [if_neg (by simp [h1]), if_neg (by simp [h2]), hb]
    dsimp only
    rw [hi]
    dsimp only
    rw [maxScore_some _ hn]
    rfl
  refine ⟨?_, ?_, ?_, ?_, ?_⟩
  · intro hne
    unfold front
    rw [if_pos hne]
  · intro h1 h2
    unfold front
    rw [if_neg (by simp [h1])]
    by_cases h3 : r.contentType = "application/json"
    · rw [if_neg (by simp [h3])]
      rcases h2 with h2 | h2
      · exact absurd h3 h2
      · rw [h2]
    · rw [if_pos h3]
  · intro i hi ha
    obtain ⟨o, ho⟩ := (acc i hi).2 ha
    rw [shape i hi (acceptable_no_nulls ha), ho]
    simp
  · intro i hi hn ha
    rw [shape i hi hn]
    cases hx : Literal.newLiteralInput R T i with
    | panic => exact absurd hx (new_no_panic hn)
    | ok o => exact absurd ((acc i hi).1 ⟨o, hx⟩) ha
    | err e => exact ⟨rfl, rfl, e, by simp [say]⟩
  · intro h1 h2 b hb hor
    unfold front
    rw [if_neg (by simp [h1]), if_neg (by simp [h2]), hb]
    dsimp only
    rcases hor with hn | ⟨i, hi, hn⟩
    · rw [hn]
    · rw [hi]
      dsimp only
      rw [maxScore_none _ hn]

/-- C158: a request that is not given a token, whatever the reason and whatever happens, leaves nothing behind; and it is
then over. -/
theorem refused_leaves_nothing {acts : List Act} {s : State} (h : from0 R T r acts = some s)
    (hh : s.head = some .dropped ∨ s.head = some (.parts none) ∨ ∃ c, s.head = some (.plain c)) :
    NothingLeft s ∧ ∀ a s', step R T r s a = some s' → a = .hangUp := by
  have ha := (inv_from h).at_
  have hi := inv_from h
  have hno : (¬ ∃ t, Accepted s t) := by
    rintro ⟨t, ht⟩
    unfold Accepted at ht
    rw [ht] at hh
    rcases hh with hh | hh | ⟨c, hh⟩ <;> cases hh
  have hne : s.head ≠ none := by
    intro e; rw [e] at hh
    rcases hh with hh | hh | ⟨c, hh⟩ <;> cases hh
  cases hp : s.pc <;> rw [hp] at ha <;> simp only [At] at ha
  case done =>
    rcases ha with ha | ha
    · refine ⟨⟨ha.1, ha.2.1, ha.2.2.1⟩, ?_⟩
      intro a s' hs
      have hpk : s.picked = false := by
        cases hpk : s.picked with
        | false => rfl
        | true => have := hi.queued hpk; rw [ha.1] at this; cases this
      cases a <;> simp only [step] at hs
      case handler c => unfold handle at hs; rw [hp] at hs; cases hs
      case pickUp => rw [ha.1] at hs; simp at hs
      case clear => rw [hpk] at hs; simp at hs
      case upload => rw [hpk] at hs; simp at hs
      case close => rw [hpk] at hs; simp at hs
      case hangUp => rfl
    · exact absurd ha.1 hno
  case start => exact absurd ha.1 hne
  case input => exact absurd ha.1 hne
  case naming => exact absurd ha.1 hne
  case greet => exact absurd ha.1 hne
  all_goals exact absurd ha.1 hno

/-- C158, the part that holds: a request whose problem is there, without null cases, always gets an answer. -/
theorem answered_partial {acts : List Act} {s : State} (h : from0 R T r acts = some s)
    (hn : ∀ b, r.body = some b → ∃ i, b.input = some i ∧ NoNulls i) : s.head ≠ some .dropped := by
  induction acts using List.reverseRecOn generalizing s with
  | nil => unfold from0 run at h; cases h; simp
  | append_singleton acts a ih =>
    obtain ⟨s0, h0, hs⟩ := from_snoc h
    have hd := ih h0
    cases a <;> simp only [step] at hs
    case pickUp => split at hs <;> cases hs; exact hd
    case clear => split at hs <;> cases hs; exact hd
    case upload => split at hs <;> cases hs; exact hd
    case close => split at hs <;> cases hs; exact hd
    case hangUp => cases hs; exact hd
    case handler c =>
      unfold handle at hs
      cases hp : s0.pc <;> rw [hp] at hs <;> (try dsimp only at hs)
      case start =>
        cases hs
        unfold front
        split; · simp
        split; · simp
        split; · simp
        rename_i b hb
        obtain ⟨i, hi, hnn⟩ := hn b hb
        rw [hi]
        dsimp only
        rw [maxScore_some _ hnn]
        dsimp only
        split
        · rename_i hx; exact absurd hx (new_no_panic hnn)
        · simp [say]
        · exact hd
      case send l =>
        cases l with
        | nil => cases hs; exact hd
        | cons f rest =>
          dsimp only at hs
          split at hs
          · cases hs; exact hd
          · cases c <;> simp only [reduceCtorEq] at hs <;> cases hs <;> exact hd
      case done => cases hs
      case choose => cases c <;> simp only [reduceCtorEq] at hs <;> split at hs <;> cases hs <;> exact hd
      case wait => split at hs <;> cases hs; exact hd
      case greet => cases hs; simp [say]
      all_goals
        first
        | (cases hs; exact hd)
        | (cases c <;> simp only [reduceCtorEq] at hs <;> cases hs <;> first | exact hd | simp)

end

/-- A request without a problem. -/
def emptyRequest : Request where
  method := "POST"
  contentType := "application/json"
  body := some { source := "", language := "", input := none }

/-- C158 is false: `{}` makes the handler panic, and the connection is closed without an answer. -/
theorem not_always_answered : ¬ AlwaysAnswered Literal.plainRuntime Literal.plainTools := by
  intro h
  have : from0 Literal.plainRuntime Literal.plainTools emptyRequest [.handler .ok] =
      some { pc := .done, head := some .dropped } := by decide +kernel
  exact h _ _ _ this rfl

/-- A null case. -/
def nullRequest : Request where
  method := "POST"
  contentType := "application/json"
  body := some { source := "", language := "", input := some { cases := [(['a'], none)], limits := none, validator := none, interactive := none } }

example : from0 Literal.plainRuntime Literal.plainTools nullRequest [.handler .ok] =
    some { pc := .done, head := some .dropped } := by decide +kernel

/-- A problem with a validator there is no such thing as. -/
def badInput : Literal.Input where
  cases := [(['a'], Literal.sampleCase 1), (['b'], Literal.sampleCase 2)]
  limits := none
  validator := some { name := ['x'], tolerance := none, custom := none }
  interactive := none

/-- A validator there is no such thing as: a compile error, worth 3 points at most. -/
def badRequest : Request where
  method := "POST"
  contentType := "application/json"
  body := some { source := "", language := "", input := some badInput }

example : (from0 Literal.plainRuntime Literal.plainTools badRequest [.handler .ok]).map (fun s => (s.head, s.heard, s.ended)) =
    some (some (.parts none), [.refused "CE" 0 3 (.invalidValidator ['x'])], true) := by decide +kernel

-- the cases of `what_is_answered` occur
example : Asks sampleRequest Literal.sampleInput ∧ Asks badRequest badInput ∧ NoNulls badInput ∧ totalOf badInput = 3 := by
  refine ⟨⟨rfl, rfl, _, rfl, rfl⟩, ⟨rfl, rfl, _, rfl, rfl⟩, ?_, ?_⟩
  · intro e he
    simp only [badInput, List.mem_cons, List.not_mem_nil, or_false] at he
    rcases he with rfl | rfl <;> exact ⟨_, _, rfl, rfl⟩
  · simp [totalOf, badInput, Literal.sampleCase]; norm_num

end Quark.Conversation
