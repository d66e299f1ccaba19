import Verif.Phases.Model
import Mathlib.Data.List.Perm.Basic
import Mathlib.Data.List.Forall2
import Mathlib.Data.List.Count

/-!
# C175: phases in a trace are well nested, with one event per program that was executed
-/
namespace Quark.Phases

/-! ## Specification -/

/-- Begins and ends match like parentheses, with the same name. -/
inductive Balanced : List Ev → Prop where
  | nil : Balanced []
  | leaf (e : Ev) (t : List Ev) : (∀ n, e ≠ .B n ∧ e ≠ .E n) → Balanced t → Balanced (e :: t)
  | pair (n : String) (t u : List Ev) : Balanced t → Balanced u → Balanced (.B n :: t ++ .E n :: u)

/-- The events of an executed case: one for each program, in some order, and then one for the case; none if it is not executed. -/
def CaseSpec (k : Case) (t : List Ev) : Prop :=
  match k.programs with
  | none => t = []
  | some ps => ∃ order : List String, order.Perm ps ∧ t = order.map (fun p => Ev.X (k.name ++ " - " ++ p)) ++ [.X k.name]

/-! ## One case -/

theorem caseSteps_append (n : String) (ps : List String) (s : CaseState) (a b : List Move) :
    caseSteps n ps s (a ++ b) = (caseSteps n ps s a).bind (caseSteps n ps · b) := by
  induction a generalizing s with
  | nil => rfl
  | cons x a ih =>
    simp only [List.cons_append, caseSteps]
    cases caseStep n ps s x with
    | none => rfl
    | some s' => simp [ih]

/-- The programs whose event was collected. -/
def collected (ps : List String) (pcs : List Pc) : List String :=
  (List.zip ps pcs).filterMap fun x => if x.2 = .running then none else some x.1

structure CaseInv (n : String) (ps : List String) (s : CaseState) : Prop where
  len : s.pcs.length = ps.length
  received : s.received ≤ s.pcs.count .sent
  events : ∃ order : List String, order.Perm (collected ps s.pcs) ∧ s.trace = order.map fun p => Ev.X (n ++ " - " ++ p)

theorem collected_set_added (ps : List String) (pcs : List Pc) (i : Nat) (p : String) (hi : pcs[i]? = some .running)
    (hp : ps[i]? = some p) : (collected ps (pcs.set i .added)).Perm (collected ps pcs ++ [p]) := by
  induction ps generalizing pcs i with
  | nil => simp at hp
  | cons q ps ih =>
    cases pcs with
    | nil => simp at hi
    | cons c pcs =>
      cases i with
      | zero =>
        simp only [List.getElem?_cons_zero, Option.some.injEq] at hi hp
        subst hi; subst hp
        simp only [collected, List.set_cons_zero, List.zip_cons_cons, List.filterMap_cons, reduceCtorEq, if_false, if_true]
        exact (List.perm_append_singleton _ _).symm
      | succ i =>
        simp only [List.getElem?_cons_succ] at hi hp
        have := ih pcs i hi hp
        simp only [collected, List.set_cons_succ, List.zip_cons_cons, List.filterMap_cons]
        by_cases hc : c = .running
        · simp only [hc, if_true]; exact this
        · simp only [hc, if_false, List.cons_append]
          exact this.cons q

theorem collected_set_sent (ps : List String) (pcs : List Pc) (i : Nat) (hi : pcs[i]? = some .added) :
    collected ps (pcs.set i .sent) = collected ps pcs := by
  induction ps generalizing pcs i with
  | nil => simp [collected]
  | cons q ps ih =>
    cases pcs with
    | nil => simp at hi
    | cons c pcs =>
      cases i with
      | zero =>
        simp only [List.getElem?_cons_zero, Option.some.injEq] at hi
        subst hi
        simp [collected]
      | succ i =>
        simp only [List.getElem?_cons_succ] at hi
        have := ih pcs i hi
        simp only [collected] at this
        simp only [collected, List.set_cons_succ, List.zip_cons_cons, List.filterMap_cons, this]

theorem count_set_le {pcs : List Pc} {i : Nat} {a b : Pc} (hi : pcs[i]? = some a) (ha : a ≠ .sent) :
    pcs.count .sent ≤ (pcs.set i b).count .sent := by
  induction pcs generalizing i with
  | nil => simp at hi
  | cons c pcs ih =>
    cases i with
    | zero =>
      simp only [List.getElem?_cons_zero, Option.some.injEq] at hi
      subst hi
      rw [List.set_cons_zero, List.count_cons, List.count_cons]
      have : (c == Pc.sent) = false := by simpa using ha
      rw [this]
      simp
    | succ i =>
      simp only [List.getElem?_cons_succ] at hi
      rw [List.set_cons_succ, List.count_cons, List.count_cons]
      exact Nat.add_le_add_right (ih hi) _

theorem case_inv {n : String} {ps : List String} {s s' : CaseState} {m : Move} (hi : CaseInv n ps s)
    (h : caseStep n ps s m = some s') : CaseInv n ps s' := by
  cases m with
  | add i =>
    simp only [caseStep] at h
    split at h
    · rename_i p h1 h2
      cases h
      refine ⟨by simp [hi.len], Nat.le_trans hi.received (count_set_le h1 (by decide)), ?_⟩
      obtain ⟨order, ho, ht⟩ := hi.events
      refine ⟨order ++ [p], ?_, by rw [ht]; simp⟩
      exact (ho.append_right [p]).trans (collected_set_added ps s.pcs i p h1 h2).symm
    · cases h
  | send i =>
    simp only [caseStep] at h
    split at h
    · rename_i h1
      cases h
      refine ⟨by simp [hi.len], Nat.le_trans hi.received (count_set_le h1 (by decide)), ?_⟩
      rw [collected_set_sent ps s.pcs i h1]
      exact hi.events
    · cases h
  | receive =>
    simp only [caseStep] at h
    split at h
    · rename_i hlt
      cases h
      exact ⟨hi.len, hlt, hi.events⟩
    · cases h

theorem case_invs {n : String} {ps : List String} {ms : List Move} {s s' : CaseState} (hi : CaseInv n ps s)
    (h : caseSteps n ps s ms = some s') : CaseInv n ps s' := by
  induction ms generalizing s with
  | nil => cases h; exact hi
  | cons m ms ih =>
    simp only [caseSteps] at h
    obtain ⟨s1, h1, h2⟩ := Option.bind_eq_some_iff.mp h
    exact ih (case_inv hi h1) h2

theorem initial_inv (n : String) (ps : List String) : CaseInv n ps { pcs := ps.map fun _ => .running } := by
  refine ⟨by simp, by simp, [], ?_, rfl⟩
  have : collected ps (ps.map fun _ => Pc.running) = [] := by
    induction ps with
    | nil => rfl
    | cons p ps ih =>
      simp only [collected, List.map_cons, List.zip_cons_cons, List.filterMap_cons, if_true]
      exact ih
  rw [this]

theorem collected_all (ps : List String) (pcs : List Pc) (hl : pcs.length = ps.length) (h : ∀ c ∈ pcs, c = .sent) :
    collected ps pcs = ps := by
  induction ps generalizing pcs with
  | nil => rfl
  | cons p ps ih =>
    cases pcs with
    | nil => simp at hl
    | cons c pcs =>
      simp only [List.length_cons, Nat.add_right_cancel_iff] at hl
      have hc := h c (by simp)
      subst hc
      simp only [collected, List.zip_cons_cons, List.filterMap_cons, reduceCtorEq, if_false, List.cons.injEq, true_and]
      exact ih pcs hl (fun c hc => h c (by simp [hc]))

/-- When the main goroutine has all results, every goroutine of the case is over. -/
theorem all_sent {n : String} {ps : List String} {s : CaseState} (hi : CaseInv n ps s) (hr : s.received = ps.length) :
    ∀ c ∈ s.pcs, c = .sent := by
  have h1 := hi.received
  rw [hr, ← hi.len] at h1
  have h2 := List.count_le_length (a := Pc.sent) (l := s.pcs)
  have h3 := List.count_eq_length.mp (Nat.le_antisymm h2 h1)
  exact fun c hc => (h3 c hc).symm

/-- **C175** No program's event comes after that of its case: once the results of all programs have been received, none of their goroutines
can act any more. -/
theorem C175_no_stragglers (n : String) (ps : List String) (ms : List Move) (s : CaseState)
    (h : caseSteps n ps { pcs := ps.map fun _ => .running } ms = some s) (hr : s.received = ps.length) (m : Move) :
    caseStep n ps s m = none := by
  have hi := case_invs (initial_inv n ps) h
  have hall := all_sent hi hr
  cases m with
  | add i =>
    simp only [caseStep]
    split
    · rename_i h1 h2
      have := hall _ (List.mem_of_getElem? h1)
      cases this
    · rfl
  | send i =>
    simp only [caseStep]
    split
    · rename_i h1
      have := hall _ (List.mem_of_getElem? h1)
      cases this
    · rfl
  | receive =>
    simp only [caseStep]
    rw [if_neg]
    have := List.count_le_length (a := Pc.sent) (l := s.pcs)
    have := hi.len
    omega

/-- **C175** Executing a case never waits for ever: until all results have been received, someone can act. -/
theorem C175_never_stuck (n : String) (ps : List String) (ms : List Move) (s : CaseState)
    (h : caseSteps n ps { pcs := ps.map fun _ => .running } ms = some s) (hr : s.received ≠ ps.length) :
    ∃ m s', caseStep n ps s m = some s' := by
  have hi := case_invs (initial_inv n ps) h
  by_cases hall : ∀ c ∈ s.pcs, c = .sent
  · refine ⟨.receive, { s with received := s.received + 1 }, ?_⟩
    have hc : s.pcs.count .sent = s.pcs.length := List.count_eq_length.mpr fun c hc => (hall c hc).symm
    simp only [caseStep]
    have h1 := hi.received
    have h2 := hi.len
    rw [if_pos (by omega)]
  · simp only [not_forall] at hall
    obtain ⟨c, hc, hne⟩ := hall
    obtain ⟨i, hi'⟩ := List.mem_iff_getElem?.mp hc
    have hlt : i < ps.length := by rw [← hi.len]; exact (List.getElem?_eq_some_iff.mp hi').1
    cases c with
    | sent => exact absurd rfl hne
    | running => exact ⟨.add i, _, by simp only [caseStep, hi', List.getElem?_eq_getElem hlt]; rfl⟩
    | added => exact ⟨.send i, _, by simp only [caseStep, hi']; rfl⟩

theorem case_spec {k : Case} {t : List Ev} (h : CaseTrace k t) : CaseSpec k t := by
  unfold CaseTrace at h
  unfold CaseSpec
  cases hp : k.programs with
  | none => rw [hp] at h; exact h
  | some ps =>
    rw [hp] at h
    obtain ⟨ms, s, hs, hr, ht⟩ := h
    have hi := case_invs (initial_inv k.name ps) hs
    obtain ⟨order, ho, he⟩ := hi.events
    rw [collected_all ps s.pcs hi.len (all_sent hi hr)] at ho
    exact ⟨order, ho, by rw [ht, he]⟩

/-! ## The whole trace -/

theorem Balanced.append {t u : List Ev} (h : Balanced t) (g : Balanced u) : Balanced (t ++ u) := by
  induction h with
  | nil => exact g
  | leaf e t he _ ih => exact .leaf e _ he ih
  | pair n t v _ _ _ ih2 =>
    have := Balanced.pair n t (v ++ u) (by assumption) ih2
    simpa using this

theorem balanced_leaves {t : List Ev} (h : ∀ e ∈ t, ∃ n, e = Ev.X n) : Balanced t := by
  induction t with
  | nil => exact .nil
  | cons e t ih =>
    obtain ⟨n, rfl⟩ := h e (by simp)
    exact .leaf _ _ (fun m => ⟨by simp, by simp⟩) (ih fun e he => h e (by simp [he]))

theorem compile_leaves (cs : List (String × Bool)) : ∀ e ∈ compileEvents cs, ∃ n, e = Ev.X n := by
  induction cs with
  | nil => simp [compileEvents]
  | cons c cs ih =>
    obtain ⟨b, ok⟩ := c
    intro e he
    simp only [compileEvents] at he
    split at he
    · rcases List.mem_cons.mp he with rfl | he
      · exact ⟨b, rfl⟩
      · exact ih e he
    · rw [List.mem_singleton.mp he]; exact ⟨b, rfl⟩

theorem case_leaves {k : Case} {t : List Ev} (h : CaseTrace k t) : ∀ e ∈ t, ∃ n, e = Ev.X n := by
  have := case_spec h
  unfold CaseSpec at this
  split at this
  · rw [this]; simp
  · obtain ⟨order, -, rfl⟩ := this
    intro e he
    rcases List.mem_append.mp he with he | he
    · obtain ⟨p, -, rfl⟩ := List.mem_map.mp he; exact ⟨_, rfl⟩
    · rw [List.mem_singleton.mp he]; exact ⟨_, rfl⟩

theorem cases_leaves {ks : List Case} {ts : List (List Ev)} (h : List.Forall₂ CaseTrace ks ts) :
    ∀ e ∈ ts.flatten, ∃ n, e = Ev.X n := by
  induction h with
  | nil => simp
  | cons h1 _ ih =>
    intro e he
    rw [List.flatten_cons] at he
    rcases List.mem_append.mp he with he | he
    · exact case_leaves h1 e he
    · exact ih e he

theorem grade_balanced (j : Job) {ts : List (List Ev)} (h : List.Forall₂ CaseTrace j.cases ts) :
    Balanced (gradeEvents j ts) := by
  have hc := Balanced.pair "compile" _ [] (balanced_leaves (compile_leaves j.compiles)) .nil
  unfold gradeEvents
  split
  · have hr := Balanced.pair "run" _ [] (balanced_leaves (cases_leaves h)) .nil
    have hv := Balanced.pair "validate" [] [] .nil .nil
    have hu : Balanced [Ev.X "upload"] := balanced_leaves (by simp)
    have := hc.append (hr.append (hv.append hu))
    simpa using this
  · simpa using hc

/-- **C175** In every trace that grading a run can give, whatever fails and however the programs of a case overlap, each phase that begins also
ends, and phases are nested. -/
theorem C175_nested (j : Job) (t : List Ev) (h : Traces j t) : Balanced t := by
  obtain ⟨ts, hts, rfl⟩ := h
  have h1 : Balanced ([Ev.X "I/O lock"] ++
      (if j.inputOk then [Ev.X "input"] ++ if j.setUpOk then gradeEvents j ts else [] else [])) := by
    refine (balanced_leaves (by simp)).append ?_
    split
    · refine (balanced_leaves (by simp)).append ?_
      split
      · exact grade_balanced j hts
      · exact .nil
    · exact .nil
  have h2 := Balanced.pair "grade" _ [] h1 .nil
  have h3 : Balanced ([Ev.M "process_name", .M "thread_name", .c "clock_sync"] ++ _) :=
    Balanced.leaf _ _ (fun m => ⟨by simp, by simp⟩) (.leaf _ _ (fun m => ⟨by simp, by simp⟩)
      (.leaf _ _ (fun m => ⟨by simp, by simp⟩) h2))
  simpa [runTrace] using h3

/-- **C175** If everything works up to there, the trace has a phase `run` with, for each case in order, exactly one event for each program that ran and
then one for the case; outside of it are only the events of the other phases. -/
theorem C175_executed (j : Job) (t : List Ev) (h : Traces j t) (hi : j.inputOk = true) (hs : j.setUpOk = true)
    (hc : ∀ b ∈ j.compiles, b.2 = true) :
    ∃ ts, List.Forall₂ CaseSpec j.cases ts ∧
      t = [.M "process_name", .M "thread_name", .c "clock_sync", .B "grade", .X "I/O lock", .X "input", .B "compile"] ++
        j.compiles.map (fun b => Ev.X b.1) ++ [.E "compile", .B "run"] ++ ts.flatten ++
        [.E "run", .B "validate", .E "validate", .X "upload", .E "grade"] := by
  obtain ⟨ts, hts, rfl⟩ := h
  refine ⟨ts, hts.imp fun _ _ => case_spec, ?_⟩
  have h1 : compileEvents j.compiles = j.compiles.map (fun b => Ev.X b.1) := by
    generalize j.compiles = l at hc
    induction l with
    | nil => rfl
    | cons b l ih =>
      obtain ⟨b, ok⟩ := b
      have : ok = true := hc (b, ok) (by simp)
      subst this
      simp only [compileEvents, if_true, List.map_cons]
      rw [ih fun b hb => hc b (by simp [hb])]
  have h2 : j.compiles.all Prod.snd = true := List.all_eq_true.mpr hc
  simp [runTrace, gradeEvents, hi, hs, h1, h2]

/-- **C175** If a program does not compile, the trace ends with the compilation of that program: nothing was run or compared. -/
theorem C175_compile_error (j : Job) (t : List Ev) (h : Traces j t) (hi : j.inputOk = true) (hs : j.setUpOk = true)
    (pre post : List (String × Bool)) (b : String) (hc : j.compiles = pre ++ (b, false) :: post) (hp : ∀ x ∈ pre, x.2 = true) :
    t = [.M "process_name", .M "thread_name", .c "clock_sync", .B "grade", .X "I/O lock", .X "input", .B "compile"] ++
        pre.map (fun b => Ev.X b.1) ++ [.X b, .E "compile", .E "grade"] := by
  obtain ⟨ts, hts, rfl⟩ := h
  have h1 : compileEvents j.compiles = pre.map (fun b => Ev.X b.1) ++ [.X b] := by
    rw [hc]
    clear hc
    induction pre with
    | nil => rfl
    | cons a l ih =>
      obtain ⟨a, ok⟩ := a
      have : ok = true := hp (a, ok) (by simp)
      subst this
      simp only [List.cons_append, compileEvents, if_true, List.map_cons]
      rw [ih fun b hb => hp b (by simp [hb])]
  have h2 : j.compiles.all Prod.snd = false := by
    rw [hc]; simp
  simp [runTrace, gradeEvents, hi, hs, h1, h2]

/-- **C175** If the input cannot be had, or setting up fails, nothing was compiled. -/
theorem C175_no_input (j : Job) (t : List Ev) (h : Traces j t) (hf : j.inputOk = false ∨ j.setUpOk = false) :
    t = [.M "process_name", .M "thread_name", .c "clock_sync", .B "grade", .X "I/O lock"] ++
      (if j.inputOk then [.X "input"] else []) ++ [.E "grade"] := by
  obtain ⟨ts, hts, rfl⟩ := h
  cases hi : j.inputOk with
  | false => simp [runTrace, hi]
  | true =>
    rw [hi] at hf
    have : j.setUpOk = false := by simpa using hf
    simp [runTrace, hi, this]

/-! ## A concrete run: an interactive problem, one of its two cases cut by the wall time limit -/

def sampleJob : Job where
  inputOk := true
  setUpOk := true
  compiles := [("Main", true), ("solution", true)]
  cases := [⟨"1", some ["Main", "solution"]⟩, ⟨"2", none⟩]

/-- The second program ends first; its result is received after both events were added. -/
def sampleMoves : List Move := [.add 1, .send 1, .add 0, .receive, .send 0, .receive]

theorem sample_traces : Traces sampleJob
    ([.M "process_name", .M "thread_name", .c "clock_sync", .B "grade", .X "I/O lock", .X "input", .B "compile", .X "Main", .X "solution",
      .E "compile", .B "run", .X "1 - solution", .X "1 - Main", .X "1", .E "run", .B "validate", .E "validate", .X "upload", .E "grade"]) := by
  refine ⟨[[.X "1 - solution", .X "1 - Main", .X "1"], []], .cons ?_ (.cons rfl .nil), by decide +kernel⟩
  have h : (caseSteps "1" ["Main", "solution"] { pcs := [.running, .running] } sampleMoves).map (fun s => (s.received, s.trace)) =
      some (2, [.X "1 - solution", .X "1 - Main"]) := by decide +kernel
  obtain ⟨s, hs, he⟩ := Option.map_eq_some_iff.mp h
  obtain ⟨e1, e2⟩ := Prod.mk.inj he
  exact ⟨sampleMoves, s, hs, e1, by rw [e2]; rfl⟩

example : ∃ t, Traces sampleJob t ∧ Balanced t := ⟨_, sample_traces, C175_nested _ _ sample_traces⟩

/-- Not every list of events is balanced. -/
example : ¬ Balanced [.B "run", .B "validate", .E "run", .E "validate"] := by
  intro h
  generalize hl : [Ev.B "run", .B "validate", .E "run", .E "validate"] = l at h
  cases h with
  | nil => cases hl
  | leaf e t he => cases hl; exact (he "run").1 rfl
  | pair n t u ht hu =>
    simp only [List.cons_append, List.cons.injEq, Ev.B.injEq] at hl
    obtain ⟨rfl, hl⟩ := hl
    match t, ht, hl with
    | [], _, hl => simp at hl
    | [a], ht, hl =>
      simp only [List.cons_append, List.nil_append, List.cons.injEq] at hl
      obtain ⟨rfl, -⟩ := hl
      generalize hq : [Ev.B "validate"] = q at ht
      cases ht with
      | nil => cases hq
      | leaf e t he => cases hq; exact (he "validate").1 rfl
      | pair n t u => simp at hq
    | [a, b], _, hl => simp at hl
    | [a, b, d], _, hl => simp at hl
    | a :: b :: d :: e :: t, _, hl =>
      have := congrArg List.length hl
      simp at this

end Quark.Phases
