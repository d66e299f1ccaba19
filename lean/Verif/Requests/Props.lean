import Verif.Requests.Model
import Verif.Literal.Props
import Mathlib.Data.List.Induction

namespace Quark.Requests

/-! ## Specification -/

/-- The runs a request is about, with what the database and the repository say. -/
def Call.asks : Call → List (Nat × Lookup)
  | .new id l _ => [(id, l)]
  | .grade _ _ ids => ids
  | .pending id l => [(id, l)]
  | .ephemeral _ => []
  | .ci _ => []

/-- C65, the priority a run must be enqueued with: 0 is the highest, 3 the lowest. -/
def RightPriority (c : Call) (r : RunCtx) : Prop :=
  match c with
  | .ephemeral _ => r.priority.index = 3
  | .ci _ => r.priority.index = 3
  | .grade rejudge debug ids =>
    ∃ slow, (r.id, some (r.guid, slow)) ∈ ids ∧
      (slow = true → r.priority.index = 2) ∧
      (slow = false → (rejudge = true ∨ debug = true) → r.priority.index = 2) ∧
      (slow = false → rejudge = false → debug = false → r.priority.index = 1)
  | .new id l _ => ∃ slow, r.id = id ∧ l = some (r.guid, slow) ∧ r.priority.index = if slow then 2 else 1
  | .pending id l => ∃ slow, r.id = id ∧ l = some (r.guid, slow) ∧ r.priority.index = if slow then 2 else 1

/-- The runs call `t` gave to `AddRun`, in order. -/
def addedBy (s : State) (t : Nat) : List RunCtx := (s.added.filter fun e => e.1 = t).map Prod.snd

/-! ## Proof -/

def key (r : RunCtx) : Nat × Guid × Priority := (r.id, r.guid, r.priority)

def fin (p : Priority) (r : RunCtx) : Nat × Guid × Priority :=
  (r.id, r.guid, if r.priority = .normal then p else r.priority)

def ephCtx (source : Str) : RunCtx := { id := 0, guid := 0, priority := .ephemeral, source := source }

def Call.runs : Call → Option (List RunCtx)
  | .new id l _ => (newRunContext id l).map fun r => [r]
  | .grade _ _ ids => contexts ids
  | .pending id l => (newRunContext id l).map fun r => [r]
  | .ephemeral s => some [ephCtx s]
  | .ci s => some [ephCtx s]

def Call.prio : Call → Priority
  | .new _ _ _ => .normal
  | .grade rejudge debug _ => if rejudge || debug then .low else .normal
  | .pending _ _ => .normal
  | .ephemeral _ => .ephemeral
  | .ci _ => .ephemeral

/-- All the runs of the call have been added. -/
def Full (c : Call) (rs done : List RunCtx) : Prop := done.map key = rs.map (fin c.prio)

/-- Some of them are missing. -/
def Part (c : Call) (rs done : List RunCtx) : Prop := ∃ r rest, done.map key ++ r :: rest = rs.map (fin c.prio)

def Call.isGrade : Call → Bool
  | .grade _ _ _ => true
  | _ => false

def ThreadOk (c : Call) (th : Thread) (done : List RunCtx) : Prop :=
  match c.runs with
  | none => th = .replied 500 ∧ done = []
  | some rs =>
    match th with
    | .opening r b => (∃ id l, c = .new id l b) ∧ rs = [r] ∧ done = []
    | .copying r _ => (∃ id l b, c = .new id l b) ∧ rs = [r] ∧ done = []
    | .injecting p rest => p = c.prio ∧ done.map key ++ rest.map (fin c.prio) = rs.map (fin c.prio)
    | .adding p r rest => p = c.prio ∧ done.map key ++ key r :: rest.map (fin c.prio) = rs.map (fin c.prio)
    | .checking ok => c.isGrade = true ∧ ((ok = true ∧ Full c rs done) ∨ (ok = false ∧ Part c rs done))
    | .replied st => (st = 200 ∧ Full c rs done) ∨ (st ≠ 200 ∧ Part c rs done) ∨
        (c.isGrade = true ∧ (Full c rs done ∨ Part c rs done) ∧ (st = 200 ∨ st = 500))

/-- What a `/run/new/` request for submission `g` with this body knows about its file. -/
def FileOk (F : Prop) (s : State) (t : Nat) (g : Guid) (body : Str) (th : Thread) : Prop :=
  match th with
  | .opening r b => r.guid = g ∧ b = body
  | .copying r rest => r.guid = g ∧ ∃ st, s.files g = some st ∧ st ++ rest = body
  | .injecting _ (r :: _) => r.guid = g ∧ ∃ st, s.files g = some st ∧ st <+: body ∧ (¬ F → st = body)
  | .adding _ r _ => s.files g ≠ none ∧ r.guid = g ∧ r.source <+: body ∧ (¬ F → r.source = body)
  | .injecting _ [] => s.files g ≠ none ∧ ∃ r, addedBy s t = [r] ∧ r.source <+: body ∧ (¬ F → r.source = body)
  | .replied 200 => s.files g ≠ none ∧ ∃ r, addedBy s t = [r] ∧ r.source <+: body ∧ (¬ F → r.source = body)
  | .checking _ => True
  | .replied _ => True

/-- The handler has created its file and is not known to have failed since. -/
def Creator : Thread → Prop
  | .opening _ _ => False
  | .copying _ _ => True
  | .injecting _ _ => True
  | .adding _ _ _ => True
  | .checking _ => False
  | .replied st => st = 200

structure Inv (acts : List Act) (s : State) : Prop where
  len : s.calls.length = s.threads.length
  tid : ∀ e ∈ s.added, e.1 < s.threads.length
  ok : ∀ t c th, s.calls[t]? = some c → s.threads[t]? = some th → ThreadOk c th (addedBy s t)
  file : ∀ t id g slow body th, s.calls[t]? = some (Call.new id (some (g, slow)) body) → s.threads[t]? = some th →
    FileOk (.step t .fail ∈ acts) s t g body th
  uniq : ∀ (t t' : Nat) id id' g slow slow' body body' th th',
    s.calls[t]? = some (Call.new id (some (g, slow)) body) → s.threads[t]? = some th → Creator th →
    s.calls[t']? = some (Call.new id' (some (g, slow')) body') → s.threads[t']? = some th' → Creator th' → t = t'

theorem run_append (files : Guid → Option Str) (acts : List Act) (a : Act) :
    run files (acts ++ [a]) = step (run files acts) a := by
  simp [run, List.foldl_append]

theorem addedBy_append (s : State) (t : Nat) (t' : Nat) (r : RunCtx) :
    addedBy { s with added := s.added ++ [(t', r)] } t = addedBy s t ++ (if t' = t then [r] else []) := by
  by_cases h : t' = t <;> simp [addedBy, List.filter_append, List.filter_cons, h]

theorem start_ok (c : Call) : ThreadOk c c.start [] := by
  cases c with
  | new id l b =>
    cases h : newRunContext id l with
    | none => simp [ThreadOk, Call.runs, Call.start, h]
    | some r => simp [ThreadOk, Call.runs, Call.start, h]
  | grade rj db ids =>
    cases h : contexts ids with
    | none => simp [ThreadOk, Call.runs, Call.start, h]
    | some rs => simp [ThreadOk, Call.runs, Call.start, h, Call.prio]
  | pending id l =>
    cases h : newRunContext id l with
    | none => simp [ThreadOk, Call.runs, Call.start, h]
    | some r => simp [ThreadOk, Call.runs, Call.start, h, Call.prio]
  | ephemeral s => simp [ThreadOk, Call.runs, Call.start, Call.prio, ephCtx, key, fin]
  | ci s => simp [ThreadOk, Call.runs, Call.start, Call.prio, ephCtx, key, fin]

theorem finish_other {c : Call} {s : State} {t : Nat} (hc : s.calls[t]? = some c) (hg : c.isGrade = false) (ok : Bool) :
    finish s t ok = { s with threads := s.threads.set t (.replied (if ok then 200 else 500)) } := by
  unfold finish
  rw [hc]
  cases c <;> first | rfl | cases hg

theorem finish_grade {c : Call} {s : State} {t : Nat} (hc : s.calls[t]? = some c) (hg : c.isGrade = true) (ok : Bool) :
    finish s t ok = { s with err := !ok, threads := s.threads.set t (.checking ok) } := by
  unfold finish
  rw [hc]
  cases c <;> first | rfl | cases hg

theorem finish_added (s : State) (t : Nat) (ok : Bool) : (finish s t ok).added = s.added := by
  unfold finish; split <;> rfl

theorem finish_files (s : State) (t : Nat) (ok : Bool) : (finish s t ok).files = s.files := by
  unfold finish; split <;> rfl

theorem finish_calls (s : State) (t : Nat) (ok : Bool) : (finish s t ok).calls = s.calls := by
  unfold finish; split <;> rfl

theorem finish_addedBy (s : State) (t t' : Nat) (ok : Bool) : addedBy (finish s t ok) t' = addedBy s t' := by
  unfold addedBy; rw [finish_added]

theorem finish_threads (s : State) (t : Nat) (ok : Bool) :
    ∃ x, (finish s t ok).threads = s.threads.set t x ∧ (x = .checking ok ∨ x = .replied (if ok then 200 else 500)) := by
  unfold finish; split
  · exact ⟨_, rfl, Or.inl rfl⟩
  · exact ⟨_, rfl, Or.inr rfl⟩

theorem finish_ok {c : Call} {s : State} {t : Nat} (hc : s.calls[t]? = some c) {rs : List RunCtx}
    (hr : c.runs = some rs) (ok : Bool) (h : if ok then Full c rs (addedBy s t) else Part c rs (addedBy s t)) :
    ∃ th', (finish s t ok).threads = s.threads.set t th' ∧ ThreadOk c th' (addedBy (finish s t ok) t) := by
  rw [finish_addedBy]
  cases hg : c.isGrade with
  | true =>
    refine ⟨.checking ok, by rw [finish_grade hc hg], ?_⟩
    simp only [ThreadOk, hr]
    refine ⟨hg, ?_⟩
    cases ok with
    | true => exact Or.inl ⟨rfl, h⟩
    | false => exact Or.inr ⟨rfl, h⟩
  | false =>
    refine ⟨.replied (if ok then 200 else 500), by rw [finish_other hc hg], ?_⟩
    simp only [ThreadOk, hr]
    cases ok with
    | true => exact Or.inl ⟨rfl, h⟩
    | false => exact Or.inr (Or.inl ⟨by decide, h⟩)

/-- Thread `t` after its step, and what it did. -/
theorem step_ok {c : Call} {s : State} {t : Nat} {ch : Choice} {th : Thread} (hc : s.calls[t]? = some c)
    (ht : s.threads[t]? = some th)
    (h : ThreadOk c th (addedBy s t)) :
    ∃ th', (threadStep s t ch th).threads = s.threads.set t th' ∧ ThreadOk c th' (addedBy (threadStep s t ch th) t) := by
  have hset : s.threads.set t th = s.threads := by
    apply List.ext_getElem?
    intro i
    rw [List.getElem?_set]
    by_cases hi : t = i
    · subst hi
      rw [if_pos rfl, ht]
      have := (List.getElem?_eq_some_iff.1 ht).1
      simp [this]
    · rw [if_neg hi]
  cases hr : c.runs with
  | none =>
    simp only [ThreadOk, hr] at h
    obtain ⟨rfl, h⟩ := h
    refine ⟨.replied 500, ?_, ?_⟩
    · simp only [threadStep]; exact hset.symm
    · simp only [ThreadOk, hr, threadStep]; exact ⟨trivial, h⟩
  | some rs =>
    simp only [ThreadOk, hr] at h
    cases th with
    | opening r b =>
      obtain ⟨⟨id, l, rfl⟩, rfl, hd⟩ := h
      cases ch with
      | fail =>
        refine ⟨.replied 500, rfl, ?_⟩
        simp only [ThreadOk, hr, threadStep]
        right; left
        exact ⟨by decide, fin _ r, [], by
          have hd' : ∀ th' : Thread, addedBy { s with threads := s.threads.set t th' } t = [] := fun _ => hd
          rw [hd']; rfl⟩
      | go =>
        simp only [threadStep]
        cases hf : s.files r.guid with
        | none =>
          refine ⟨.copying r b, rfl, ?_⟩
          simp only [ThreadOk, hr]
          exact ⟨⟨id, l, b, rfl⟩, trivial, hd⟩
        | some x =>
          refine ⟨.replied 409, rfl, ?_⟩
          simp only [ThreadOk, hr]
          right; left
          exact ⟨by decide, fin _ r, [], by
          have hd' : ∀ th' : Thread, addedBy { s with threads := s.threads.set t th' } t = [] := fun _ => hd
          rw [hd']; rfl⟩
      | part n =>
        simp only [threadStep]
        cases hf : s.files r.guid with
        | none =>
          refine ⟨.copying r b, rfl, ?_⟩
          simp only [ThreadOk, hr]
          exact ⟨⟨id, l, b, rfl⟩, trivial, hd⟩
        | some x =>
          refine ⟨.replied 409, rfl, ?_⟩
          simp only [ThreadOk, hr]
          right; left
          exact ⟨by decide, fin _ r, [], by
          have hd' : ∀ th' : Thread, addedBy { s with threads := s.threads.set t th' } t = [] := fun _ => hd
          rw [hd']; rfl⟩
    | copying r b =>
      obtain ⟨⟨id, l, b0, rfl⟩, rfl, hd⟩ := h
      cases ch with
      | fail =>
        refine ⟨.injecting .normal [r], rfl, ?_⟩
        simp only [ThreadOk, hr, threadStep]
        refine ⟨rfl, ?_⟩
        simp [addedBy] at hd ⊢
        exact hd
      | go =>
        refine ⟨.injecting .normal [r], rfl, ?_⟩
        simp only [ThreadOk, hr, threadStep]
        refine ⟨rfl, ?_⟩
        simp [addedBy] at hd ⊢
        exact hd
      | part n =>
        refine ⟨.copying r (b.drop n), rfl, ?_⟩
        simp only [ThreadOk, hr, threadStep]
        exact ⟨⟨id, l, b0, rfl⟩, trivial, hd⟩
    | injecting p rest =>
      obtain ⟨rfl, hd⟩ := h
      cases rest with
      | nil =>
        rw [List.map_nil, List.append_nil] at hd
        exact finish_ok hc hr true hd
      | cons r rest =>
        have hfail := finish_ok hc hr false ⟨fin c.prio r, rest.map (fin c.prio), hd⟩
        have hgo : ∀ ch' : Choice, ch' ≠ .fail → ∃ th', (threadStep s t ch' (.injecting c.prio (r :: rest))).threads =
            s.threads.set t th' ∧ ThreadOk c th' (addedBy (threadStep s t ch' (.injecting c.prio (r :: rest))) t) := by
          intro ch' hne
          cases hf : s.files r.guid with
          | none =>
            have e : threadStep s t ch' (.injecting c.prio (r :: rest)) = finish s t false := by
              cases ch' <;> simp_all [threadStep]
            rw [e]; exact hfail
          | some src =>
            refine ⟨.adding c.prio { r with source := src
                                            priority := if r.priority = .normal then c.prio else r.priority } rest, ?_, ?_⟩
            · cases ch' <;> simp_all [threadStep]
            · have : addedBy (threadStep s t ch' (.injecting c.prio (r :: rest))) t = addedBy s t := by
                cases ch' <;> simp_all [threadStep, addedBy]
              rw [this]
              simp only [ThreadOk, hr]
              exact ⟨trivial, hd⟩
        cases ch with
        | fail => exact hfail
        | go => exact hgo .go (by simp)
        | part n => exact hgo (.part n) (by simp)
    | adding p r rest =>
      obtain ⟨rfl, hd⟩ := h
      refine ⟨.injecting c.prio rest, rfl, ?_⟩
      simp only [ThreadOk, hr, threadStep]
      refine ⟨trivial, ?_⟩
      have := addedBy_append { s with threads := s.threads.set t (.injecting c.prio rest) } t t r
      simp only [if_pos] at this
      rw [this]
      rw [← hd]
      simp [addedBy]
    | checking ok =>
      refine ⟨.replied (if s.err then 500 else 200), rfl, ?_⟩
      simp only [ThreadOk, hr]
      refine Or.inr (Or.inr ⟨h.1, ?_, ?_⟩)
      · rcases h.2 with ⟨-, h⟩ | ⟨-, h⟩
        · exact Or.inl h
        · exact Or.inr h
      · cases s.err
        · exact Or.inl rfl
        · exact Or.inr rfl
    | replied st =>
      refine ⟨.replied st, ?_, ?_⟩
      · simp only [threadStep]; exact hset.symm
      · simp only [ThreadOk, hr, threadStep]; exact h

theorem step_calls (s : State) (t : Nat) (ch : Choice) (th : Thread) : (threadStep s t ch th).calls = s.calls := by
  cases th with
  | opening r b => cases ch <;> simp only [threadStep] <;> split <;> rfl
  | copying r b => cases ch <;> rfl
  | injecting p rest =>
    cases rest with
    | nil => exact finish_calls s t true
    | cons r rest =>
      cases ch <;> simp only [threadStep]
      case fail => exact finish_calls s t false
      all_goals (split; exact finish_calls s t false; rfl)
  | adding p r rest => rfl
  | checking ok => rfl
  | replied st => rfl

theorem step_files (s : State) (t : Nat) (ch : Choice) (th : Thread) (g : Guid) :
    (threadStep s t ch th).files g = s.files g ∨
    (∃ r b, th = .opening r b ∧ r.guid = g ∧ s.files g = none) ∨
    (∃ r b, th = .copying r b ∧ r.guid = g ∧ (threadStep s t ch th).files g ≠ none) := by
  cases th with
  | opening r b =>
    cases ch <;> simp only [threadStep]
    case fail => left; trivial
    all_goals
      cases hf : s.files r.guid with
      | some x => left; rfl
      | none =>
        by_cases hg : g = r.guid
        · right; left; exact ⟨r, b, rfl, hg.symm, by rw [hg]; exact hf⟩
        · left; simp [setFile, hg]
  | copying r b =>
    cases ch <;> simp only [threadStep]
    case fail => left; trivial
    all_goals
      by_cases hg : g = r.guid
      · right; right; exact ⟨r, b, rfl, hg.symm, by simp [setFile, hg]⟩
      · left; simp [setFile, hg]
  | injecting p rest =>
    left
    cases rest with
    | nil => exact congrFun (finish_files s t true) g
    | cons r rest =>
      cases ch <;> simp only [threadStep]
      case fail => exact congrFun (finish_files s t false) g
      all_goals (split; exact congrFun (finish_files s t false) g; rfl)
  | adding p r rest => left; rfl
  | checking ok => left; rfl
  | replied st => left; rfl

theorem step_added (s : State) (t t' : Nat) (ch : Choice) (th : Thread) (h : t ≠ t') :
    addedBy (threadStep s t ch th) t' = addedBy s t' := by
  cases th with
  | opening r b => cases ch <;> simp only [threadStep] <;> (try split) <;> rfl
  | copying r b => cases ch <;> rfl
  | injecting p rest =>
    cases rest with
    | nil => exact finish_addedBy s t t' true
    | cons r rest =>
      cases ch <;> simp only [threadStep]
      case fail => exact finish_addedBy s t t' false
      all_goals (split; exact finish_addedBy s t t' false; rfl)
  | adding p r rest =>
    simp only [threadStep]
    have := addedBy_append { s with threads := s.threads.set t (.injecting p rest) } t' t r
    rw [if_neg h, List.append_nil] at this
    exact this
  | checking ok => rfl
  | replied st => rfl

theorem step_tid {s : State} {t : Nat} {ch : Choice} {th : Thread} (ht : s.threads[t]? = some th)
    (h : ∀ e ∈ s.added, e.1 < s.threads.length) : ∀ e ∈ (threadStep s t ch th).added, e.1 < s.threads.length := by
  have htl := (List.getElem?_eq_some_iff.1 ht).1
  cases th with
  | opening r b => cases ch <;> simp only [threadStep] <;> (try split) <;> exact h
  | copying r b => cases ch <;> exact h
  | injecting p rest =>
    have hf : ∀ ok, ∀ e ∈ (finish s t ok).added, e.1 < s.threads.length := fun ok => by
      rw [finish_added]; exact h
    cases rest with
    | nil => exact hf true
    | cons r rest =>
      cases ch <;> simp only [threadStep]
      case fail => exact hf false
      all_goals (split; exact hf false; exact h)
  | adding p r rest =>
    simp only [threadStep, List.mem_append, List.mem_singleton]
    rintro e (he | rfl)
    · exact h e he
    · exact htl
  | checking ok => exact h
  | replied st => exact h

theorem FileOk.mono {F F' : Prop} {s s' : State} {t : Nat} {g : Guid} {body : Str} {th : Thread} (hF : F → F')
    (hf : Creator th → s'.files g = s.files g) (ha : addedBy s' t = addedBy s t) (h : FileOk F s t g body th) :
    FileOk F' s' t g body th := by
  cases th with
  | opening r b => exact h
  | copying r b =>
    simp only [FileOk] at h ⊢
    rw [hf trivial]; exact h
  | injecting p rest =>
    cases rest with
    | nil =>
      simp only [FileOk] at h ⊢
      rw [hf trivial, ha]
      obtain ⟨h1, r, h2, h3, h4⟩ := h
      exact ⟨h1, r, h2, h3, fun hn => h4 fun x => hn (hF x)⟩
    | cons r rest =>
      simp only [FileOk] at h ⊢
      rw [hf trivial]
      obtain ⟨h0, st, h2, h3, h4⟩ := h
      exact ⟨h0, st, h2, h3, fun hn => h4 fun x => hn (hF x)⟩
  | adding p r rest =>
    simp only [FileOk] at h ⊢
    rw [hf trivial]
    obtain ⟨h0, h2, h3, h4⟩ := h
    exact ⟨h0, h2, h3, fun hn => h4 fun x => hn (hF x)⟩
  | checking ok => trivial
  | replied st =>
    by_cases hst : st = 200
    · subst hst
      simp only [FileOk] at h ⊢
      rw [hf (by rfl), ha]
      obtain ⟨h1, r, h2, h3, h4⟩ := h
      exact ⟨h1, r, h2, h3, fun hn => h4 fun x => hn (hF x)⟩
    · unfold FileOk
      split <;> simp_all

/-- The same, when the file only comes into being or grows. -/
theorem FileOk.weak {F F' : Prop} {s s' : State} {t : Nat} {g : Guid} {body : Str} {th : Thread} (hF : F → F')
    (hn : s.files g ≠ none → s'.files g ≠ none)
    (hf : (∃ r b, th = .copying r b) ∨ (∃ p r b, th = .injecting p (r :: b)) → s'.files g = s.files g)
    (ha : addedBy s' t = addedBy s t) (h : FileOk F s t g body th) :
    FileOk F' s' t g body th := by
  cases th with
  | opening r b => exact h
  | copying r b =>
    simp only [FileOk] at h ⊢
    rw [hf (Or.inl ⟨r, b, rfl⟩)]; exact h
  | injecting p rest =>
    cases rest with
    | nil =>
      simp only [FileOk] at h ⊢
      rw [ha]
      obtain ⟨h1, r, h2, h3, h4⟩ := h
      exact ⟨hn h1, r, h2, h3, fun hn => h4 fun x => hn (hF x)⟩
    | cons r rest =>
      simp only [FileOk] at h ⊢
      rw [hf (Or.inr ⟨p, r, rest, rfl⟩)]
      obtain ⟨h0, st, h2, h3, h4⟩ := h
      exact ⟨h0, st, h2, h3, fun hn => h4 fun x => hn (hF x)⟩
  | adding p r rest =>
    simp only [FileOk] at h ⊢
    obtain ⟨h0, h2, h3, h4⟩ := h
    exact ⟨hn h0, h2, h3, fun hn => h4 fun x => hn (hF x)⟩
  | checking ok => trivial
  | replied st =>
    by_cases hst : st = 200
    · subst hst
      simp only [FileOk] at h ⊢
      rw [ha]
      obtain ⟨h1, r, h2, h3, h4⟩ := h
      exact ⟨hn h1, r, h2, h3, fun hn => h4 fun x => hn (hF x)⟩
    · unfold FileOk
      split <;> simp_all

/-- A creator's file is there. -/
theorem FileOk.exists {F : Prop} {s : State} {t : Nat} {g : Guid} {body : Str} {th : Thread}
    (h : FileOk F s t g body th) (hc : Creator th) : s.files g ≠ none := by
  cases th with
  | opening r b => exact hc.elim
  | copying r b => obtain ⟨_, st, h, _⟩ := h; simp [h]
  | injecting p rest =>
    cases rest with
    | nil => exact h.1
    | cons r rest => obtain ⟨_, st, h, _⟩ := h; simp [h]
  | adding p r rest => exact h.1
  | checking ok => exact hc.elim
  | replied st => cases hc; exact h.1

/-- A handler that touches the submissions directory is one for a new run, and knows its submission. -/
theorem ThreadOk.toucher {c : Call} {th : Thread} {done : List RunCtx} (h : ThreadOk c th done) {r : RunCtx} {b : Str}
    (ht : th = .opening r b ∨ th = .copying r b) :
    ∃ id slow body, c = .new id (some (r.guid, slow)) body := by
  have main : ∀ rs, c.runs = some rs → rs = [r] → (∃ id l b', c = .new id l b') →
      ∃ id slow body, c = .new id (some (r.guid, slow)) body := by
    rintro rs h1 rfl ⟨id, l, b', rfl⟩
    cases l with
    | none => simp [Call.runs, newRunContext] at h1
    | some l =>
      obtain ⟨g, slow⟩ := l
      simp only [Call.runs, newRunContext, Option.map_some, Option.some.injEq, List.cons.injEq, and_true] at h1
      subst h1
      exact ⟨id, slow, b', rfl⟩
  cases hr : c.runs with
  | none =>
    simp only [ThreadOk, hr] at h
    rcases ht with rfl | rfl <;> cases h.1
  | some rs =>
    simp only [ThreadOk, hr] at h
    rcases ht with rfl | rfl
    · obtain ⟨⟨id, l, rfl⟩, h2, -⟩ := h
      exact main rs hr h2 ⟨id, l, b, rfl⟩
    · obtain ⟨⟨id, l, b', rfl⟩, h2, -⟩ := h
      exact main rs hr h2 ⟨id, l, b', rfl⟩

theorem ThreadOk.single {id : Nat} {g : Guid} {slow : Bool} {body : Str} {th : Thread} {done : List RunCtx}
    (h : ThreadOk (.new id (some (g, slow)) body) th done) :
    (∀ p r rest, th = .injecting p (r :: rest) → rest = [] ∧ done = []) ∧
    (∀ p r rest, th = .adding p r rest → rest = [] ∧ done = []) ∧
    (∀ p, th = .injecting p [] → done.length = 1) ∧
    (th = .replied 200 → done.length = 1) := by
  have hr : Call.runs (.new id (some (g, slow)) body) =
    some [{ id := id, guid := g, source := [], priority := if slow then .low else .normal }] := rfl
  simp only [ThreadOk, hr] at h
  refine ⟨?_, ?_, ?_, ?_⟩
  · rintro p r rest rfl
    have := congrArg List.length h.2
    simp only [List.length_append, List.length_map, List.length_cons, List.length_nil] at this
    exact ⟨List.length_eq_zero_iff.1 (by omega), List.length_eq_zero_iff.1 (by omega)⟩
  · rintro p r rest rfl
    have := congrArg List.length h.2
    simp only [List.length_append, List.length_map, List.length_cons, List.length_nil] at this
    exact ⟨List.length_eq_zero_iff.1 (by omega), List.length_eq_zero_iff.1 (by omega)⟩
  · rintro p rfl
    have := congrArg List.length h.2
    simpa using this
  · rintro rfl
    rcases h with ⟨-, h⟩ | ⟨h, -⟩ | ⟨h, -⟩
    · have := congrArg List.length h
      simpa using this
    · exact absurd rfl h
    · cases h

/-- The step of a handler for a new run, as seen by itself. -/
theorem step_fileOk {F : Prop} {s : State} {t id : Nat} {g : Guid} {slow : Bool} {body : Str} {ch : Choice} {th th' : Thread}
    (hc : s.calls[t]? = some (.new id (some (g, slow)) body)) (ht : s.threads[t]? = some th)
    (hk : ThreadOk (.new id (some (g, slow)) body) th (addedBy s t))
    (h : FileOk F s t g body th) (hth : (threadStep s t ch th).threads[t]? = some th') :
    FileOk (F ∨ ch = .fail) (threadStep s t ch th) t g body th' ∧
    (Creator th' → Creator th ∨ s.files g = none) := by
  have htl := (List.getElem?_eq_some_iff.1 ht).1
  have get : ∀ x, (s.threads.set t x)[t]? = some x := fun x => by simp [List.getElem?_set, htl]
  have hfin := finish_other hc rfl
  obtain ⟨hs1, hs2, hs3, hs4⟩ := hk.single
  cases th with
  | opening r b =>
    obtain ⟨rfl, rfl⟩ := h
    have hgo : ∀ ch', ch' ≠ .fail → (threadStep s t ch' (.opening r b)).threads[t]? = some th' →
        FileOk (F ∨ ch' = .fail) (threadStep s t ch' (.opening r b)) t r.guid b th' ∧
        (Creator th' → Creator (.opening r b) ∨ s.files r.guid = none) := by
      intro ch' hne hth
      cases hf : s.files r.guid with
      | none =>
        have e : threadStep s t ch' (.opening r b) =
          { s with files := setFile s.files r.guid (some []), threads := s.threads.set t (.copying r b) } := by
          cases ch' <;> simp_all [threadStep]
        rw [e] at hth ⊢
        dsimp only at hth
        rw [get] at hth
        cases hth
        exact ⟨⟨rfl, [], by simp [setFile], rfl⟩, fun _ => Or.inr rfl⟩
      | some x =>
        have e : threadStep s t ch' (.opening r b) = { s with threads := s.threads.set t (.replied 409) } := by
          cases ch' <;> simp_all [threadStep]
        rw [e] at hth ⊢
        dsimp only at hth
        rw [get] at hth
        cases hth
        exact ⟨trivial, fun h => by cases h⟩
    cases ch with
    | fail =>
      simp only [threadStep] at hth ⊢
      rw [get] at hth
      cases hth
      exact ⟨trivial, fun h => by cases h⟩
    | go => exact hgo .go (by simp) hth
    | part n => exact hgo (.part n) (by simp) hth
  | copying r b =>
    obtain ⟨rfl, st, hst, hb⟩ := h
    refine ⟨?_, fun _ => Or.inl trivial⟩
    cases ch with
    | fail =>
      simp only [threadStep] at hth ⊢
      rw [get] at hth
      cases hth
      exact ⟨rfl, st, hst, ⟨b, hb⟩, fun hn => absurd (Or.inr trivial) hn⟩
    | go =>
      simp only [threadStep] at hth ⊢
      rw [get] at hth
      cases hth
      refine ⟨rfl, body, ?_, List.prefix_refl _, fun _ => rfl⟩
      simp [setFile, hst, hb]
    | part n =>
      simp only [threadStep] at hth ⊢
      rw [get] at hth
      cases hth
      refine ⟨rfl, st ++ b.take n, ?_, ?_⟩
      · simp [setFile, hst]
      · rw [List.append_assoc, List.take_append_drop, hb]
  | injecting p rest =>
    cases rest with
    | nil =>
      simp only [threadStep, hfin, if_true] at hth ⊢
      rw [get] at hth
      cases hth
      obtain ⟨h1, r, h2, h3, h4⟩ := h
      exact ⟨⟨h1, r, h2, h3, fun hn => h4 fun x => hn (Or.inl x)⟩, fun _ => Or.inl trivial⟩
    | cons r rest =>
      refine ⟨?_, fun _ => Or.inl trivial⟩
      obtain ⟨rfl, st, hst, h3, h4⟩ := h
      have hgo : ∀ ch', ch' ≠ .fail → (threadStep s t ch' (.injecting p (r :: rest))).threads[t]? = some th' →
          FileOk (F ∨ ch' = .fail) (threadStep s t ch' (.injecting p (r :: rest))) t r.guid body th' := by
        intro ch' hne hth
        have e : threadStep s t ch' (.injecting p (r :: rest)) =
          { s with threads := s.threads.set t (.adding p
              { r with source := st, priority := if r.priority = .normal then p else r.priority } rest) } := by
          cases ch' <;> simp_all [threadStep]
        rw [e] at hth ⊢
        dsimp only at hth
        rw [get] at hth
        cases hth
        exact ⟨by simp [hst], rfl, h3, fun hn => h4 fun x => hn (Or.inl x)⟩
      cases ch with
      | fail =>
        simp only [threadStep, hfin] at hth ⊢
        rw [get] at hth
        cases hth
        trivial
      | go => exact hgo .go (by simp) hth
      | part n => exact hgo (.part n) (by simp) hth
  | adding p r rest =>
    obtain ⟨h1, h2, h3, h4⟩ := h
    obtain ⟨rfl, hd⟩ := hs2 p r rest rfl
    refine ⟨?_, fun _ => Or.inl trivial⟩
    simp only [threadStep] at hth ⊢
    rw [get] at hth
    cases hth
    refine ⟨h1, r, ?_, h3, fun hn => h4 fun x => hn (Or.inl x)⟩
    have := addedBy_append { s with threads := s.threads.set t (.injecting p []) } t t r
    rw [if_pos rfl] at this
    rw [this]
    have hd' : addedBy { s with threads := s.threads.set t (.injecting p []) } t = [] := hd
    rw [hd']; rfl
  | checking ok => simp only [ThreadOk, Call.runs, newRunContext, Option.map_some] at hk; cases hk.1
  | replied st =>
    simp only [threadStep] at hth ⊢
    rw [ht] at hth
    cases hth
    exact ⟨h.mono Or.inl (fun _ => rfl) rfl, Or.inl⟩

theorem inv_init (files : Guid → Option Str) : Inv [] { files := files } := by
  constructor <;> simp

theorem inv_step {acts : List Act} {s : State} (a : Act) (h : Inv acts s) : Inv (acts ++ [a]) (step s a) := by
  have hF : ∀ t, Act.step t .fail ∈ acts → Act.step t .fail ∈ acts ++ [a] := fun t h => List.mem_append_left _ h
  cases a with
  | call c =>
    have getc : ∀ t d, (s.calls ++ [c])[t]? = some d → s.calls[t]? = some d ∨ (t = s.calls.length ∧ d = c) := by
      intro t d hd
      rcases Nat.lt_or_ge t s.calls.length with hl | hl
      · rw [List.getElem?_append_left hl] at hd; exact Or.inl hd
      · rw [List.getElem?_append_right hl] at hd
        rcases Nat.eq_zero_or_pos (t - s.calls.length) with h0 | h0
        · rw [h0] at hd; simp at hd; exact Or.inr ⟨by omega, hd.symm⟩
        · rw [List.getElem?_eq_none (by simp only [List.length_singleton]; exact h0)] at hd; cases hd
    have gett : ∀ t d, (s.threads ++ [c.start])[t]? = some d →
        s.threads[t]? = some d ∨ (t = s.threads.length ∧ d = c.start) := by
      intro t d hd
      rcases Nat.lt_or_ge t s.threads.length with hl | hl
      · rw [List.getElem?_append_left hl] at hd; exact Or.inl hd
      · rw [List.getElem?_append_right hl] at hd
        rcases Nat.eq_zero_or_pos (t - s.threads.length) with h0 | h0
        · rw [h0] at hd; simp at hd; exact Or.inr ⟨by omega, hd.symm⟩
        · rw [List.getElem?_eq_none (by simp only [List.length_singleton]; exact h0)] at hd; cases hd
    have both : ∀ t d x, (s.calls ++ [c])[t]? = some d → (s.threads ++ [c.start])[t]? = some x →
        (s.calls[t]? = some d ∧ s.threads[t]? = some x) ∨ (t = s.threads.length ∧ d = c ∧ x = c.start) := by
      intro t d x h1 h2
      rcases getc t d h1 with g1 | ⟨g1, e1⟩ <;> rcases gett t x h2 with g2 | ⟨g2, e2⟩
      · exact Or.inl ⟨g1, g2⟩
      · have := (List.getElem?_eq_some_iff.1 g1).1; have := h.len; omega
      · have := (List.getElem?_eq_some_iff.1 g2).1; have := h.len; omega
      · exact Or.inr ⟨g2, e1, e2⟩
    have hempty : addedBy s s.threads.length = [] := by
      simp only [addedBy, List.map_eq_nil_iff, List.filter_eq_nil_iff]
      intro e he hx
      have := h.tid e he
      simp at hx; omega
    have notCreator : ∀ id g slow body, c = .new id (some (g, slow)) body → ¬ Creator c.start := by
      rintro id g slow body rfl hc
      exact hc
    refine ⟨?_, ?_, ?_, ?_, ?_⟩
    · simp [step, h.len]
    · intro e he; have := h.tid e he; simp [step]; omega
    · intro t d x h1 h2
      rcases both t d x h1 h2 with ⟨h1, h2⟩ | ⟨rfl, rfl, rfl⟩
      · exact h.ok t d x h1 h2
      · have : addedBy (step s (.call d)) s.threads.length = [] := hempty
        rw [this]
        exact start_ok d
    · intro t id g slow body x h1 h2
      rcases both t _ x h1 h2 with ⟨h1, h2⟩ | ⟨rfl, e, rfl⟩
      · exact (h.file t id g slow body x h1 h2).mono (hF t) (fun _ => rfl) rfl
      · subst e
        exact ⟨rfl, rfl⟩
    · intro t t' id id' g slow slow' body body' x x' h1 h2 h3 h4 h5 h6
      rcases both t _ x h1 h2 with ⟨h1, h2⟩ | ⟨rfl, e, rfl⟩
      · rcases both t' _ x' h4 h5 with ⟨h4, h5⟩ | ⟨rfl, e, rfl⟩
        · exact h.uniq t t' id id' g slow slow' body body' x x' h1 h2 h3 h4 h5 h6
        · exact absurd h6 (notCreator _ _ _ _ e.symm)
      · exact absurd h3 (notCreator _ _ _ _ e.symm)
  | step t ch =>
    cases ht : s.threads[t]? with
    | none =>
      have e : step s (.step t ch) = s := by simp [step, ht]
      rw [e]
      exact ⟨h.len, h.tid, h.ok, fun t id g slow body x h1 h2 =>
        (h.file t id g slow body x h1 h2).mono (hF t) (fun _ => rfl) rfl, h.uniq⟩
    | some th =>
      have e : step s (.step t ch) = threadStep s t ch th := by simp [step, ht]
      rw [e]
      have htl := (List.getElem?_eq_some_iff.1 ht).1
      obtain ⟨c, hc⟩ : ∃ c, s.calls[t]? = some c := ⟨_, List.getElem?_eq_getElem (by rw [h.len]; exact htl)⟩
      have hok := h.ok t c th hc ht
      obtain ⟨th', hset, hok'⟩ := step_ok (ch := ch) hc ht hok
      have hlen : (threadStep s t ch th).threads.length = s.threads.length := by rw [hset]; simp
      have hother : ∀ t2, t ≠ t2 → (threadStep s t ch th).threads[t2]? = s.threads[t2]? := by
        intro t2 hne; rw [hset]; simp [List.getElem?_set, hne]
      have hself : (threadStep s t ch th).threads[t]? = some th' := by rw [hset]; simp [List.getElem?_set, htl]
      have hcalls := step_calls s t ch th
      have hown : ∀ id g slow body, c = .new id (some (g, slow)) body →
          FileOk (Act.step t .fail ∈ acts ∨ ch = .fail) (threadStep s t ch th) t g body th' ∧
          (Creator th' → Creator th ∨ s.files g = none) := by
        rintro id g slow body rfl
        exact step_fileOk hc ht hok (h.file t id g slow body th hc ht) hself
      refine ⟨?_, ?_, ?_, ?_, ?_⟩
      · rw [hcalls, hlen, h.len]
      · rw [hlen]; exact step_tid ht h.tid
      · intro t2 d x h1 h2
        rw [hcalls] at h1
        by_cases hne : t = t2
        · subst hne
          rw [hself] at h2; cases h2
          rw [hc] at h1; cases h1
          exact hok'
        · rw [hother t2 hne] at h2
          rw [step_added s t t2 ch th hne]
          exact h.ok t2 d x h1 h2
      · intro t2 id g slow body x h1 h2
        rw [hcalls] at h1
        by_cases hne : t = t2
        · subst hne
          rw [hself] at h2; cases h2
          rw [hc] at h1; cases h1
          refine (hown id g slow body rfl).1.mono ?_ (fun _ => rfl) rfl
          rintro (hx | rfl)
          · exact hF t hx
          · simp
        · rw [hother t2 hne] at h2
          have h0 := h.file t2 id g slow body x h1 h2
          refine h0.weak (hF t2) ?_ ?_ (step_added s t t2 ch th hne)
          · intro hn
            rcases step_files s t ch th g with hg | ⟨r, b, -, -, hg⟩ | ⟨r, b, -, -, hg⟩
            · rw [hg]; exact hn
            · exact absurd hg hn
            · exact hg
          · intro hx
            have hcx : Creator x := by
              rcases hx with ⟨r, b, rfl⟩ | ⟨p, r, b, rfl⟩ <;> trivial
            rcases step_files s t ch th g with hg | ⟨r, b, -, -, hg⟩ | ⟨r, b, rfl, hrg, -⟩
            · exact hg
            · exact absurd hg (h0.exists hcx)
            · obtain ⟨id', slow', body', rfl⟩ := hok.toucher (Or.inr rfl)
              rw [hrg] at hc
              exact absurd (h.uniq t t2 _ _ g _ _ _ _ _ _ hc ht trivial h1 h2 hcx) hne
      · have key : ∀ t2 id g slow body x, s.calls[t2]? = some (Call.new id (some (g, slow)) body) →
            (threadStep s t ch th).threads[t2]? = some x → Creator x →
            (∃ y, s.threads[t2]? = some y ∧ Creator y) ∨ (t2 = t ∧ s.files g = none) := by
          intro t2 id g slow body x h1 h2 h3
          by_cases hne : t = t2
          · subst hne
            rw [hself] at h2; cases h2
            rw [hc] at h1; cases h1
            rcases (hown id g slow body rfl).2 h3 with hy | hy
            · exact Or.inl ⟨th, ht, hy⟩
            · exact Or.inr ⟨rfl, hy⟩
          · rw [hother t2 hne] at h2
            exact Or.inl ⟨x, h2, h3⟩
        intro t1 t2 id id' g slow slow' body body' x x' h1 h2 h3 h4 h5 h6
        rw [hcalls] at h1 h4
        rcases key t1 id g slow body x h1 h2 h3 with ⟨y, hy, hcy⟩ | ⟨e1, hn⟩
        · rcases key t2 id' g slow' body' x' h4 h5 h6 with ⟨z, hz, hcz⟩ | ⟨e2, hn⟩
          · exact h.uniq t1 t2 id id' g slow slow' body body' y z h1 hy hcy h4 hz hcz
          · exact absurd hn ((h.file t1 id g slow body y h1 hy).exists hcy)
        · rcases key t2 id' g slow' body' x' h4 h5 h6 with ⟨z, hz, hcz⟩ | ⟨e2, -⟩
          · exact absurd hn ((h.file t2 id' g slow' body' z h4 hz).exists hcz)
          · rw [e1, e2]

theorem inv_run (files : Guid → Option Str) (acts : List Act) : Inv acts (run files acts) := by
  induction acts using List.reverseRecOn with
  | nil => exact inv_init files
  | append_singleton acts a ih => rw [run_append]; exact inv_step a ih

/-! ## C65 -/

theorem contexts_mem {ids : List (Nat × Lookup)} {rs : List RunCtx} (h : contexts ids = some rs) {r : RunCtx}
    (hr : r ∈ rs) : ∃ slow, (r.id, some (r.guid, slow)) ∈ ids ∧ r.priority = if slow then .low else .normal := by
  induction ids generalizing rs with
  | nil => simp only [contexts, Option.some.injEq] at h; subst h; cases hr
  | cons x ids ih =>
    obtain ⟨id, l⟩ := x
    cases l with
    | none => simp [contexts, newRunContext] at h
    | some l =>
      obtain ⟨g, slow⟩ := l
      simp only [contexts, newRunContext] at h
      cases hc : contexts ids with
      | none => simp [hc] at h
      | some rs' =>
        simp only [hc, Option.map_some, Option.some.injEq] at h
        subst h
        rcases List.mem_cons.1 hr with rfl | hr'
        · exact ⟨slow, by simp, rfl⟩
        · obtain ⟨sl, h1, h2⟩ := ih hc hr'
          exact ⟨sl, List.mem_cons_of_mem _ h1, h2⟩

theorem contexts_ids {ids : List (Nat × Lookup)} {rs : List RunCtx} (h : contexts ids = some rs) :
    rs.map (fun r => r.id) = ids.map Prod.fst := by
  induction ids generalizing rs with
  | nil => simp only [contexts, Option.some.injEq] at h; subst h; rfl
  | cons x ids ih =>
    obtain ⟨id, l⟩ := x
    cases hn : newRunContext id l with
    | none => simp [contexts, hn] at h
    | some r =>
      simp only [contexts, hn] at h
      cases hc : contexts ids with
      | none => simp [hc] at h
      | some rs' =>
        simp only [hc, Option.map_some, Option.some.injEq] at h
        subst h
        have : r.id = id := by
          cases l with
          | none => simp [newRunContext] at hn
          | some l => obtain ⟨g, slow⟩ := l; simp only [newRunContext, Option.some.injEq] at hn; subst hn; rfl
        simp [ih hc, this]

theorem contexts_none {ids : List (Nat × Lookup)} : contexts ids = none ↔ ∃ id, (id, none) ∈ ids := by
  induction ids with
  | nil => simp [contexts]
  | cons x ids ih =>
    obtain ⟨id, l⟩ := x
    cases l with
    | none => simp only [contexts, newRunContext]; exact ⟨fun _ => ⟨id, by simp⟩, fun _ => trivial⟩
    | some l =>
      obtain ⟨g, slow⟩ := l
      simp only [contexts, newRunContext, Option.map_eq_none_iff, ih]
      simp

/-- Everything the runs of a call have in common, whatever point its handler has reached. -/
theorem ThreadOk.runs {c : Call} {th : Thread} {done : List RunCtx} (h : ThreadOk c th done) :
    done = [] ∨ ∃ rs, c.runs = some rs ∧ done.map key <+: rs.map (fin c.prio) := by
  cases hr : c.runs with
  | none => simp only [ThreadOk, hr] at h; exact Or.inl h.2
  | some rs =>
    simp only [ThreadOk, hr] at h
    cases th with
    | opening r b => exact Or.inl h.2.2
    | copying r b => exact Or.inl h.2.2
    | injecting p rest => exact Or.inr ⟨rs, rfl, _, h.2⟩
    | adding p r rest => exact Or.inr ⟨rs, rfl, _, h.2⟩
    | checking ok =>
      rcases h.2 with ⟨-, h⟩ | ⟨-, r, rest, h⟩
      · exact Or.inr ⟨rs, rfl, [], by rw [List.append_nil]; exact h⟩
      · exact Or.inr ⟨rs, rfl, _, h⟩
    | replied st =>
      rcases h with ⟨-, h⟩ | ⟨-, r, rest, h⟩ | ⟨-, h | ⟨r, rest, h⟩, -⟩
      · exact Or.inr ⟨rs, rfl, [], by rw [List.append_nil]; exact h⟩
      · exact Or.inr ⟨rs, rfl, _, h⟩
      · exact Or.inr ⟨rs, rfl, [], by rw [List.append_nil]; exact h⟩
      · exact Or.inr ⟨rs, rfl, _, h⟩

theorem right_of_runs {c : Call} {rs : List RunCtx} {r : RunCtx} (h : c.runs = some rs)
    (hr : key r ∈ rs.map (fin c.prio)) : RightPriority c r := by
  obtain ⟨q, hq, e⟩ := List.mem_map.1 hr
  simp only [key, fin, Prod.mk.injEq] at e
  obtain ⟨e1, e2, e3⟩ := e
  have one : ∀ id l, (newRunContext id l).map (fun r => [r]) = some rs →
      ∃ slow, q.id = id ∧ l = some (q.guid, slow) ∧ q.priority = if slow then .low else .normal := by
    intro id l h
    cases l with
    | none => simp [newRunContext] at h
    | some l =>
      obtain ⟨g, slow⟩ := l
      simp only [newRunContext, Option.map_some, Option.some.injEq] at h
      subst h
      simp only [List.mem_singleton] at hq
      subst hq
      exact ⟨slow, rfl, rfl, rfl⟩
  cases c with
  | new id l b =>
    obtain ⟨slow, h1, h2, h3⟩ := one id l h
    refine ⟨slow, by rw [← e1, h1], by rw [← e2]; exact h2, ?_⟩
    rw [← e3, h3]
    cases slow <;> rfl
  | pending id l =>
    obtain ⟨slow, h1, h2, h3⟩ := one id l h
    refine ⟨slow, by rw [← e1, h1], by rw [← e2]; exact h2, ?_⟩
    rw [← e3, h3]
    cases slow <;> rfl
  | grade rj db ids =>
    obtain ⟨slow, h1, h2⟩ := contexts_mem h hq
    rw [e1, e2] at h1
    refine ⟨slow, h1, ?_, ?_, ?_⟩
    · rintro rfl; rw [← e3, h2]; rfl
    · rintro rfl hx
      rw [← e3, h2]
      rcases hx with rfl | rfl
      · rfl
      · cases rj <;> rfl
    · rintro rfl rfl rfl; rw [← e3, h2]; rfl
  | ephemeral s =>
    simp only [Call.runs, Option.some.injEq] at h
    subst h
    simp only [List.mem_singleton] at hq
    subst hq
    show r.priority.index = 3
    rw [← e3]; rfl
  | ci s =>
    simp only [Call.runs, Option.some.injEq] at h
    subst h
    simp only [List.mem_singleton] at hq
    subst hq
    show r.priority.index = 3
    rw [← e3]; rfl

theorem mem_addedBy {s : State} {t : Nat} {r : RunCtx} : r ∈ addedBy s t ↔ (t, r) ∈ s.added := by
  simp [addedBy]

/-- C65: whatever requests come in and however their handlers interleave, every run given to the queue was asked for by
the call that did it and has the right priority. -/
theorem C65_priority (files : Guid → Option Str) (acts : List Act) (t : Nat) (r : RunCtx)
    (h : (t, r) ∈ (run files acts).added) :
    ∃ c, (run files acts).calls[t]? = some c ∧ RightPriority c r := by
  have hi := inv_run files acts
  have htl := hi.tid _ h
  obtain ⟨th, hth⟩ : ∃ th, (run files acts).threads[t]? = some th := ⟨_, List.getElem?_eq_getElem htl⟩
  obtain ⟨c, hc⟩ : ∃ c, (run files acts).calls[t]? = some c :=
    ⟨_, List.getElem?_eq_getElem (by rw [hi.len]; exact htl)⟩
  refine ⟨c, hc, ?_⟩
  have hm := mem_addedBy.2 h
  rcases (hi.ok t c th hc hth).runs with h0 | ⟨rs, hrs, hp⟩
  · rw [h0] at hm; cases hm
  · exact right_of_runs hrs (hp.subset (List.mem_map.2 ⟨r, hm, rfl⟩))

theorem key_ids (l : List RunCtx) : (l.map key).map Prod.fst = l.map fun r => r.id := by rw [List.map_map]; rfl

theorem fin_ids (p : Priority) (l : List RunCtx) : (l.map (fin p)).map Prod.fst = l.map fun r => r.id := by
  rw [List.map_map]; rfl

theorem Full.ids {rj db : Bool} {ids : List (Nat × Lookup)} {rs done : List RunCtx}
    (hr : Call.runs (.grade rj db ids) = some rs) (h : Full (.grade rj db ids) rs done) :
    done.map (fun r => r.id) = ids.map Prod.fst := by
  rw [← key_ids, h, fin_ids, contexts_ids hr]

theorem Part.ids {rj db : Bool} {ids : List (Nat × Lookup)} {rs done : List RunCtx}
    (hr : Call.runs (.grade rj db ids) = some rs) (h : Part (.grade rj db ids) rs done) :
    done.map (fun r => r.id) <+: ids.map Prod.fst ∧ done.length < ids.length := by
  obtain ⟨r, rest, h⟩ := h
  have h2 := congrArg (List.map Prod.fst) h
  rw [List.map_append, key_ids, fin_ids, contexts_ids hr] at h2
  refine ⟨⟨_, h2⟩, ?_⟩
  have h3 := congrArg List.length h2
  simp at h3
  omega

/-- C65: at every moment a `/run/grade/` request has enqueued an initial part of the runs it names, in the order it names
them. If one of them cannot be looked up, the answer is 500 and nothing is ever enqueued. (What the answer says otherwise
is C125.) -/
theorem C65_grade (files : Guid → Option Str) (acts : List Act) (t : Nat) (rejudge debug : Bool)
    (ids : List (Nat × Lookup)) (hc : (run files acts).calls[t]? = some (.grade rejudge debug ids)) :
    (addedBy (run files acts) t).map (fun r => r.id) <+: ids.map Prod.fst ∧
    ((∃ id, (id, none) ∈ ids) →
      (run files acts).threads[t]? = some (.replied 500) ∧ addedBy (run files acts) t = []) := by
  have hi := inv_run files acts
  obtain ⟨th, ht⟩ : ∃ th, (run files acts).threads[t]? = some th :=
    ⟨_, List.getElem?_eq_getElem (by rw [← hi.len]; exact (List.getElem?_eq_some_iff.1 hc).1)⟩
  have hok := hi.ok t _ _ hc ht
  refine ⟨?_, ?_⟩
  · rcases hok.runs with h | ⟨rs, hr, ⟨x, h⟩⟩
    · rw [h]; exact List.nil_prefix
    · have h2 := congrArg (List.map Prod.fst) h
      rw [List.map_append, key_ids, fin_ids, contexts_ids hr] at h2
      exact ⟨_, h2⟩
  · intro hn
    have hr : Call.runs (.grade rejudge debug ids) = none := contexts_none.2 hn
    simp only [ThreadOk, hr] at hok
    rw [ht, hok.1]
    exact ⟨rfl, hok.2⟩

/-! ## C74 -/

/-- C74: of all the `/run/new/` requests for one submission, at most one enqueues a run, and it does so once. -/
theorem C74_once (files : Guid → Option Str) (acts : List Act) (t t' : Nat) (id id' : Nat) (g : Guid)
    (slow slow' : Bool) (body body' : Str) (r r' : RunCtx)
    (hc : (run files acts).calls[t]? = some (.new id (some (g, slow)) body))
    (hc' : (run files acts).calls[t']? = some (.new id' (some (g, slow')) body'))
    (hr : (t, r) ∈ (run files acts).added) (hr' : (t', r') ∈ (run files acts).added) :
    t = t' ∧ addedBy (run files acts) t = [r] ∧ r = r' := by
  have hi := inv_run files acts
  have main : ∀ t id slow body r, (run files acts).calls[t]? = some (Call.new id (some (g, slow)) body) →
      (t, r) ∈ (run files acts).added → ∃ th, (run files acts).threads[t]? = some th ∧ Creator th ∧
        addedBy (run files acts) t = [r] := by
    intro t id slow body r hc hr
    obtain ⟨th, hth⟩ : ∃ th, (run files acts).threads[t]? = some th := ⟨_, List.getElem?_eq_getElem (hi.tid _ hr)⟩
    have hok := hi.ok t _ th hc hth
    obtain ⟨h1, h2, h3, h4⟩ := hok.single
    have hm := mem_addedBy.2 hr
    have hne : addedBy (run files acts) t ≠ [] := fun h0 => by rw [h0] at hm; cases hm
    have one : (addedBy (run files acts) t).length = 1 → addedBy (run files acts) t = [r] := by
      intro hl
      obtain ⟨x, hx⟩ := List.length_eq_one_iff.1 hl
      rw [hx] at hm ⊢
      rw [List.mem_singleton.1 hm]
    refine ⟨th, hth, ?_⟩
    cases th with
    | opening r b => simp only [ThreadOk, Call.runs, newRunContext, Option.map_some] at hok; exact absurd hok.2.2 hne
    | copying r b => simp only [ThreadOk, Call.runs, newRunContext, Option.map_some] at hok; exact absurd hok.2.2 hne
    | injecting p rest =>
      cases rest with
      | nil => exact ⟨trivial, one (h3 p rfl)⟩
      | cons x rest => exact absurd (h1 p x rest rfl).2 hne
    | adding p x rest => exact absurd (h2 p x rest rfl).2 hne
    | checking ok => simp only [ThreadOk, Call.runs, newRunContext, Option.map_some] at hok; cases hok.1
    | replied st =>
      simp only [ThreadOk, Call.runs, newRunContext, Option.map_some] at hok
      rcases hok with ⟨rfl, h⟩ | ⟨-, x, rest, h⟩ | ⟨h, -⟩
      · exact ⟨rfl, one (h4 rfl)⟩
      rotate_left
      · cases h
      · have := congrArg List.length h
        simp at this
        exact absurd (List.length_eq_zero_iff.1 (by omega)) hne
  obtain ⟨th, h1, h2, h3⟩ := main t id slow body r hc hr
  obtain ⟨th', h1', h2', h3'⟩ := main t' id' slow' body' r' hc' hr'
  have := hi.uniq t t' id id' g slow slow' body body' th th' hc h1 h2 hc' h1' h2'
  subst this
  refine ⟨rfl, h3, ?_⟩
  rw [h3] at h3'
  simpa using h3'

/-- C74: a `/run/new/` request is answered with 200 iff it has enqueued its run, exactly once; the run is graded with a
prefix of the body of that very request, and with all of it unless some operation of this request failed. -/
theorem C74_reply_partial (files : Guid → Option Str) (acts : List Act) (t st : Nat) (id : Nat) (lookup : Lookup) (body : Str)
    (hc : (run files acts).calls[t]? = some (.new id lookup body))
    (ht : (run files acts).threads[t]? = some (.replied st)) :
    (st = 200 → ∃ r, addedBy (run files acts) t = [r] ∧ r.id = id ∧ r.source <+: body ∧
      (.step t .fail ∉ acts → r.source = body)) ∧
    (st ≠ 200 → addedBy (run files acts) t = []) := by
  have hi := inv_run files acts
  have hok := hi.ok t _ _ hc ht
  cases lookup with
  | none =>
    simp only [ThreadOk, Call.runs, newRunContext, Option.map_none, Thread.replied.injEq] at hok
    obtain ⟨rfl, hd⟩ := hok
    exact ⟨fun h => absurd h (by decide), fun _ => hd⟩
  | some l =>
    obtain ⟨g, slow⟩ := l
    constructor
    · rintro rfl
      obtain ⟨-, r, h1, h2, h3⟩ := hi.file t id g slow body _ hc ht
      refine ⟨r, h1, ?_, h2, h3⟩
      obtain ⟨c, hc', h4⟩ := C65_priority files acts t r (mem_addedBy.1 (by rw [h1]; simp))
      rw [hc] at hc'
      cases hc'
      exact h4.choose_spec.1
    · intro hst
      simp only [ThreadOk, Call.runs, newRunContext, Option.map_some] at hok
      rcases hok with ⟨h, -⟩ | ⟨-, x, rest, h⟩ | ⟨h, -⟩
      · exact absurd h hst
      rotate_left
      · cases h
      · have := congrArg List.length h
        simp at this
        exact List.length_eq_zero_iff.1 (by omega)

/-- Once a submission's file exists, `/run/new/` requests for it that have not yet looked never enqueue anything: they
are refused with 409, or fail. -/
theorem C74_conflict (files : Guid → Option Str) (acts : List Act) (t : Nat) (c : Choice) (r : RunCtx) (body : Str)
    (ht : (run files acts).threads[t]? = some (.opening r body)) (hf : (run files acts).files r.guid ≠ none) :
    (step (run files acts) (.step t c)).threads[t]? = some (.replied 409) ∨
    (c = .fail ∧ (step (run files acts) (.step t c)).threads[t]? = some (.replied 500)) := by
  have htl := (List.getElem?_eq_some_iff.1 ht).1
  obtain ⟨x, hx⟩ := Option.ne_none_iff_exists'.1 hf
  have e : step (run files acts) (.step t c) = threadStep (run files acts) t c (.opening r body) := by
    simp only [step]; rw [ht]
  rw [e]
  cases c <;> simp [threadStep, hx, List.getElem?_set, htl]

/-! ### Examples and what is not true -/

/-- Three requests: a new run of a slow problem, a rejudge of a fast one together with a slow one, an ephemeral run. -/
def sampleActs : List Act :=
  [.call (.new 7 (some (70, true)) ['a', 'b']), .call (.grade true false [(8, some (80, false)), (9, some (90, true))]),
   .call (.ephemeral ['e']), .call (.new 7 (some (70, true)) ['z']), .call (.grade false false [(8, some (80, false))]),
   .step 0 .go, .step 3 .go, .step 0 (.part 1), .step 1 .go, .step 1 .go, .step 0 .go, .step 0 .go, .step 0 .go,
   .step 0 .go, .step 2 .go, .step 1 .go, .step 1 .go, .step 1 .go, .step 1 .go, .step 4 .go, .step 4 .go]

def sampleFiles : Guid → Option Str := fun g => if g = 80 then some ['x'] else if g = 90 then some ['y'] else none

example : (run sampleFiles sampleActs).added =
    [(1, { id := 8, guid := 80, priority := .low, source := ['x'] }),
     (0, { id := 7, guid := 70, priority := .low, source := ['a', 'b'] }),
     (2, { id := 0, guid := 0, priority := .ephemeral, source := ['e'] }),
     (1, { id := 9, guid := 90, priority := .low, source := ['y'] }),
     (4, { id := 8, guid := 80, priority := .normal, source := ['x'] })] ∧
    (run sampleFiles sampleActs).threads[0]? = some (.replied 200) ∧
    (run sampleFiles sampleActs).threads[1]? = some (.replied 200) ∧
    (run sampleFiles sampleActs).threads[3]? = some (.replied 409) := by
  decide

/-- What one would want of C74, first half: a run accepted with 200 is graded with the whole body of its request. -/
def WholeSource : Prop := ∀ (files : Guid → Option Str) (acts : List Act) (t id : Nat) (lookup : Lookup) (body : Str),
    (run files acts).calls[t]? = some (.new id lookup body) → (run files acts).threads[t]? = some (.replied 200) →
    ∀ r, (t, r) ∈ (run files acts).added → r.source = body

/-- It is false: when the connection breaks in the middle of the body, the run is graded with what had arrived, and
accepted. -/
theorem C74_truncated : ¬ WholeSource := by
  intro h
  have := h (fun _ => none)
    [.call (.new 7 (some (70, false)) ['a', 'b']), .step 0 .go, .step 0 (.part 1), .step 0 .fail, .step 0 .go,
     .step 0 .go, .step 0 .go] 0 7 (some (70, false)) ['a', 'b'] (by decide) (by decide)
    { id := 7, guid := 70, priority := .normal, source := ['a'] } (by decide)
  simp at this

/-- What one would want, second half: whatever is enqueued for a submission that came in through `/run/new/` has the
source that request sent. It is false even if nothing fails: a rejudge that comes while the body is still arriving reads
what is there so far. -/
theorem C74_race : ∃ acts : List Act, (∀ t, .step t .fail ∉ acts) ∧
    (run (fun _ => none) acts).calls =
      [.new 7 (some (70, false)) ['a', 'b'], .grade true false [(7, some (70, false))]] ∧
    (run (fun _ => none) acts).threads = [.replied 200, .replied 200] ∧
    (run (fun _ => none) acts).added =
      [(1, { id := 7, guid := 70, priority := .low, source := ['a'] }),
       (0, { id := 7, guid := 70, priority := .normal, source := ['a', 'b'] })] := by
  refine ⟨[.call (.new 7 (some (70, false)) ['a', 'b']), .step 0 .go, .step 0 (.part 1),
    .call (.grade true false [(7, some (70, false))]), .step 1 .go, .step 1 .go, .step 1 .go, .step 1 .go,
    .step 0 .go, .step 0 .go, .step 0 .go, .step 0 .go], ?_, ?_, ?_, ?_⟩
  · intro t; simp
  all_goals decide

/-- A request that fails after creating the file leaves a submission that can never be sent again: every later
`/run/new/` request for it is refused. -/
theorem C74_stuck : ∃ acts : List Act,
    (run (fun _ => none) acts).calls =
      [.new 7 (some (70, false)) ['a'], .new 7 (some (70, false)) ['a']] ∧
    (run (fun _ => none) acts).threads = [.replied 500, .replied 409] ∧ (run (fun _ => none) acts).added = [] := by
  refine ⟨[.call (.new 7 (some (70, false)) ['a']), .step 0 .go, .step 0 .go, .step 0 .fail,
    .call (.new 7 (some (70, false)) ['a']), .step 1 .go], ?_, ?_, ?_⟩
  all_goals decide

/-! ## C55 -/

open Quark.Literal (Limits literalCaps IsMap)

variable {ι : Type}

/-- What C55 asks of the limits a run is graded with. -/
def WithinCaps (caps : Caps) (l : Limits) : Prop :=
  l.timeLimit ≤ caps.caseTimeLimit ∧ l.overallWallTimeLimit ≤ caps.overallWallTimeLimit ∧
  l.memoryLimit ≤ caps.memoryLimit

instance (caps : Caps) (l : Limits) : Decidable (WithinCaps caps l) := inferInstanceAs (Decidable (_ ∧ _ ∧ _))

theorem validateRequest_cases (caps : Caps) (input : Literal.Input) :
    (validateRequest caps input).cases = input.cases := by
  unfold validateRequest; split <;> rfl

/-- C55, when the request says which limits it wants: the run is graded within the configured caps, and also within what
it asked for and within the limits of literal inputs; limits below all of these are left alone. -/
theorem C55_caps_partial {R : Literal.Runtime} {T : Literal.Tools ι} {caps : Caps} {input : Literal.Input}
    {o : Literal.Output ι} (hm : IsMap input.cases) (h : ephemeralInput R T caps input = .ok o) (l : Limits)
    (hl : input.limits = some l) :
    WithinCaps caps o.settings.limits ∧
    (∀ f ∈ [Limits.timeLimit, Limits.overallWallTimeLimit, Limits.extraWallTime, Limits.memoryLimit, Limits.outputLimit],
      f o.settings.limits ≤ f literalCaps ∧ f o.settings.limits ≤ f l) ∧
    (WithinCaps caps l →
      (∀ f ∈ [Limits.timeLimit, Limits.overallWallTimeLimit, Limits.extraWallTime, Limits.memoryLimit,
        Limits.outputLimit], f l ≤ f literalCaps) → o.settings.limits = l) := by
  unfold ephemeralInput at h
  have hm' : IsMap (validateRequest caps input).cases := by rw [validateRequest_cases]; exact hm
  have hlim : (validateRequest caps input).limits = some { l with
        timeLimit := min caps.caseTimeLimit l.timeLimit
        overallWallTimeLimit := min caps.overallWallTimeLimit l.overallWallTimeLimit
        memoryLimit := min caps.memoryLimit l.memoryLimit } := by
    unfold validateRequest; rw [hl]
  have key := Literal.C54_limits_clamped hm' h
  revert key
  generalize literalCaps = caps'
  intro key
  have sub : ∀ f ∈ [Limits.timeLimit, Limits.overallWallTimeLimit, Limits.extraWallTime, Limits.memoryLimit,
      Limits.outputLimit], f { l with
        timeLimit := min caps.caseTimeLimit l.timeLimit
        overallWallTimeLimit := min caps.overallWallTimeLimit l.overallWallTimeLimit
        memoryLimit := min caps.memoryLimit l.memoryLimit } ≤ f l := by
    intro f hf
    simp only [List.mem_cons, List.not_mem_nil, or_false] at hf
    rcases hf with rfl | rfl | rfl | rfl | rfl
    · exact min_le_right _ _
    · exact min_le_right _ _
    · exact le_refl _
    · exact min_le_right _ _
    · exact le_refl _
  have get := fun f hf => ((key f hf).2.1 _ hlim).1
  refine ⟨⟨?_, ?_, ?_⟩, ?_, ?_⟩
  · exact le_trans (get Limits.timeLimit (by simp)) (min_le_left _ _)
  · exact le_trans (get Limits.overallWallTimeLimit (by simp)) (min_le_left _ _)
  · exact le_trans (get Limits.memoryLimit (by simp)) (min_le_left _ _)
  · intro f hf
    exact ⟨(key f hf).1, le_trans (get f hf) (sub f hf)⟩
  · rintro ⟨h1, h2, h3⟩ hle
    have heq : (Limits.mk l.extraWallTime (min caps.memoryLimit l.memoryLimit) l.outputLimit
        (min caps.overallWallTimeLimit l.overallWallTimeLimit) (min caps.caseTimeLimit l.timeLimit)) = l := by
      rw [min_eq_right h1, min_eq_right h2, min_eq_right h3]
    have e := fun f hf => ((key f hf).2.1 _ (hlim.trans (congrArg some heq))).2.1 (hle f hf)
    have e1 := e Limits.timeLimit (by simp)
    have e2 := e Limits.overallWallTimeLimit (by simp)
    have e3 := e Limits.extraWallTime (by simp)
    have e4 := e Limits.memoryLimit (by simp)
    have e5 := e Limits.outputLimit (by simp)
    cases hs : o.settings.limits
    rw [hs] at e1 e2 e3 e4 e5
    cases l
    simp only at e1 e2 e3 e4 e5
    simp [e1, e2, e3, e4, e5]

/-- Without limits in the request the configuration is not looked at: the run gets the limits of literal inputs. So C55
holds for such requests exactly when the configured caps are at least those. -/
theorem C55_no_limits {R : Literal.Runtime} {T : Literal.Tools ι} {caps : Caps} {input : Literal.Input}
    {o : Literal.Output ι} (hm : IsMap input.cases) (h : ephemeralInput R T caps input = .ok o)
    (hl : input.limits = none) : WithinCaps caps o.settings.limits ↔ WithinCaps caps literalCaps := by
  unfold ephemeralInput at h
  have hv : validateRequest caps input = input := by unfold validateRequest; rw [hl]
  rw [hv] at h
  have key := fun f hf => (Literal.C54_limits_clamped hm h f hf).2.2 hl
  unfold WithinCaps
  rw [key Limits.timeLimit (by simp), key Limits.overallWallTimeLimit (by simp), key Limits.memoryLimit (by simp)]

/-- C55 in full. -/
def CapsRespected (caps : Caps) : Prop := ∀ (R : Literal.Runtime) (T : Literal.Tools Unit) (input : Literal.Input)
  (o : Literal.Output Unit), IsMap input.cases → ephemeralInput R T caps input = .ok o → WithinCaps caps o.settings.limits

def unlimitedInput : Literal.Input := { Literal.sampleInput with limits := none }

/-- The caps of the default configuration: ten seconds (in nanoseconds) each, and one GiB. -/
theorem C55_default_caps : defaultCaps.caseTimeLimit = 10000000000 ∧ defaultCaps.overallWallTimeLimit = 10000000000 ∧
    defaultCaps.memoryLimit = 1073741824 := by decide

/-- C55 is false of the default configuration: the memory cap is 1 GiB, and a request without limits gets 1.5 GiB. -/
theorem C55_false : ¬ CapsRespected defaultCaps := by
  intro h
  have hm : IsMap unlimitedInput.cases := by decide
  have hev : (match ephemeralInput Literal.plainRuntime Literal.plainTools defaultCaps unlimitedInput with
      | .ok o => decide (¬ WithinCaps defaultCaps o.settings.limits) | _ => false) = true := by decide +kernel
  cases ho : ephemeralInput Literal.plainRuntime Literal.plainTools defaultCaps unlimitedInput with
  | ok o =>
    rw [ho] at hev
    exact of_decide_eq_true hev (h _ _ _ o hm ho)
  | err e => rw [ho] at hev; cases hev
  | panic => rw [ho] at hev; cases hev

/-- The exact condition on the configuration under which C55 holds in full. -/
theorem C55_exact (caps : Caps) : CapsRespected caps ↔ WithinCaps caps literalCaps := by
  constructor
  · intro h
    have hm : IsMap unlimitedInput.cases := by decide
    have hev : (match ephemeralInput Literal.plainRuntime Literal.plainTools defaultCaps unlimitedInput with
        | .ok _ => true | _ => false) = true := by decide +kernel
    have he : ephemeralInput Literal.plainRuntime Literal.plainTools caps unlimitedInput =
      ephemeralInput Literal.plainRuntime Literal.plainTools defaultCaps unlimitedInput := rfl
    cases ho : ephemeralInput Literal.plainRuntime Literal.plainTools defaultCaps unlimitedInput with
    | ok o => exact (C55_no_limits hm (he.trans ho) rfl).1 (h _ _ _ o hm (he.trans ho))
    | err e => rw [ho] at hev; cases hev
    | panic => rw [ho] at hev; cases hev
  · intro h R T input o hm ho
    cases hl : input.limits with
    | none => exact (C55_no_limits hm ho hl).2 h
    | some l => exact (C55_caps_partial hm ho l hl).1

def greedyInput : Literal.Input :=
  { Literal.sampleInput with limits := some (Limits.mk 5 2000000000 7 (20 * 1000000000) 3) }

/-- A request for too much memory and wall time gets the caps, and keeps the rest. -/
example : IsMap greedyInput.cases ∧ (match ephemeralInput Literal.plainRuntime Literal.plainTools defaultCaps greedyInput with
    | .ok o => decide (o.settings.limits = Limits.mk 0 1073741824 7 10000000000 3) | _ => false) = true := by
  decide +kernel

/-- CI runs are not subject to the caps at all. -/
theorem C55_ci_uncapped : ∃ input : Literal.Input, input.limits ≠ none ∧ IsMap input.cases ∧
    (match ciInput Literal.plainRuntime Literal.plainTools defaultCaps input with
      | .ok o => decide (¬ WithinCaps defaultCaps o.settings.limits) | _ => false) = true :=
  ⟨{ Literal.sampleInput with limits := some (Limits.mk 0 1610612736 7 1 1) }, by simp, by decide, by decide +kernel⟩

end Quark.Requests
