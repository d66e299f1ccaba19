import Verif.Upload.Model
/-!
# What is recorded for a run (C77–C81)

Vocabulary of the statements: which parts of an upload are acceptable, which of them the
grader gets to, and what they carry.  Nothing here mentions the state of the run.
-/
namespace Quark.Upload

/-- A part that is received in full: a `details.json` that decodes, logs and files read to
their end (and, when files are stored, that could be created), a trace that decodes. -/
def Part.acceptable (store : Bool) : Part → Bool
  | .details d => d.isSome
  | .logs _ whole => whole
  | .tracing (.events _) => true
  | .tracing _ => false
  | .file _ _ created whole => whole && (created || !store)

/-- The parts before the first one that is not acceptable. -/
def received (store : Bool) (u : Upload) : List Part :=
  if u.mkdirOk && u.multipart then u.parts.takeWhile (Part.acceptable store) else []

/-- The first part that is not acceptable. -/
def broken (store : Bool) (u : Upload) : Option Part :=
  if u.mkdirOk && u.multipart then (u.parts.dropWhile (Part.acceptable store)).head? else none

/-- The results carried by some parts, signed with the name of the sender. -/
def resultsOf (sender : String) : List Part → List Result
  | [] => []
  | .details (some d) :: ps => ⟨d.verdict, d.score, sender, d.rest⟩ :: resultsOf sender ps
  | _ :: ps => resultsOf sender ps

def logsOf (sender : String) : List Part → List (String × String)
  | [] => []
  | .logs t _ :: ps => (sender, t) :: logsOf sender ps
  | _ :: ps => logsOf sender ps

def eventsOf : List Part → List String
  | [] => []
  | .tracing (.events es) :: ps => es ++ eventsOf ps
  | _ :: ps => eventsOf ps

/-- The contents some parts give for a file of that name, in order. -/
def contentsOf (name : String) : List Part → List String
  | [] => []
  | .file n c created _ :: ps =>
      if n = name ∧ created then c :: contentsOf name ps else contentsOf name ps
  | _ :: ps => contentsOf name ps

/-- The uploads of a history that found the run in flight under the attempt they name, i.e.
that were not answered 404. -/
def handled : List (Event × Option Nat) → List Upload
  | [] => []
  | (.upload _ u _, s) :: l => if s = some 404 then handled l else u :: handled l
  | _ :: l => handled l

/-- the three files the grader itself writes for a finished run -/
def Generated (n : String) : Prop :=
  n = "details.json" ∨ n = "logs.txt.gz" ∨ n = "tracing.json.gz"

/-! ## One upload -/

theorem resultsOf_append (s) (a b : List Part) :
    resultsOf s (a ++ b) = resultsOf s a ++ resultsOf s b := by
  induction a with
  | nil => rfl
  | cons p a ih =>
    cases p with
    | details d => cases d <;> simp [resultsOf, ih]
    | _ => simp [resultsOf, ih]

theorem contentsOf_append (n) (a b : List Part) :
    contentsOf n (a ++ b) = contentsOf n a ++ contentsOf n b := by
  induction a with
  | nil => rfl
  | cons p a ih =>
    cases p with
    | file m c cr w => simp only [List.cons_append, contentsOf]; split <;> simp [ih]
    | _ => simp [contentsOf, ih]

/-- what the loop over the parts leaves -/
structure PartsSpec (store : Bool) (runner : String) (r r' : Run) (ps : List Part)
    (bad : List Part) : Prop where
  result : r'.result = (resultsOf runner ps).getLastD r.result
  logs : r'.logs = r.logs ++ logsOf runner ps
  events : r'.events = r.events ++ eventsOf ps
  dir : ∀ n, r'.dir n =
    if store then ((contentsOf n (ps ++ bad)).map some).getLastD (r.dir n) else r.dir n
  tries : r'.tries = r.tries
  attempt : r'.attempt = r.attempt
  phase : r'.phase = r.phase

theorem getLastD_cons' {α} (a : α) (l : List α) (d : α) :
    (a :: l).getLastD d = l.getLastD a := by
  cases l <;> rfl

theorem parts_spec (store : Bool) (runner : String) (ended : Bool) (ps : List Part) (r : Run) :
    PartsSpec store runner r (parts store runner ended r ps).1
      (ps.takeWhile (Part.acceptable store)) (ps.dropWhile (Part.acceptable store)).head?.toList := by
  induction ps generalizing r with
  | nil =>
    simp only [parts]
    split <;> refine ⟨?_, ?_, ?_, ?_, rfl, rfl, rfl⟩ <;>
      simp [resultsOf, logsOf, eventsOf, contentsOf]
  | cons p ps ih =>
    by_cases hp : Part.acceptable store p = true
    · -- the part is accepted and the loop goes on
      simp only [List.takeWhile_cons, hp, List.dropWhile_cons, if_true]
      cases p with
      | details d =>
        cases d with
        | none => simp [Part.acceptable] at hp
        | some d =>
          simp only [parts, part]
          have := ih { r with result := { d with judgedBy := runner } }
          refine ⟨?_, ?_, ?_, ?_, this.tries, this.attempt, this.phase⟩
          · rw [this.result, resultsOf, getLastD_cons']
          · simpa [logsOf] using this.logs
          · simpa [eventsOf] using this.events
          · intro n; simpa [contentsOf] using this.dir n
      | logs t w =>
        simp only [Part.acceptable] at hp
        subst hp
        simp only [parts, part, if_true]
        have := ih { r with logs := r.logs ++ [(runner, t)] }
        refine ⟨?_, ?_, ?_, ?_, this.tries, this.attempt, this.phase⟩
        · simpa [resultsOf] using this.result
        · rw [this.logs]; simp [logsOf]
        · simpa [eventsOf] using this.events
        · intro n; simpa [contentsOf] using this.dir n
      | tracing t =>
        cases t with
        | events es =>
          simp only [parts, part]
          have := ih { r with events := r.events ++ es }
          refine ⟨?_, ?_, ?_, ?_, this.tries, this.attempt, this.phase⟩
          · simpa [resultsOf] using this.result
          · simpa [logsOf] using this.logs
          · rw [this.events]; simp [eventsOf]
          · intro n; simpa [contentsOf] using this.dir n
        | _ => simp [Part.acceptable] at hp
      | file m c cr w =>
        simp only [Part.acceptable, Bool.and_eq_true, Bool.or_eq_true, Bool.not_eq_true'] at hp
        obtain ⟨rfl, hc⟩ := hp
        cases store with
        | false =>
          simp only [parts, part, if_true, Bool.false_eq_true, if_false]
          have := ih r
          refine ⟨?_, ?_, ?_, ?_, this.tries, this.attempt, this.phase⟩
          · simpa [resultsOf] using this.result
          · simpa [logsOf] using this.logs
          · simpa [eventsOf] using this.events
          · intro n; simpa using this.dir n
        | true =>
          have hcr : cr = true := by simpa using hc
          subst hcr
          simp only [parts, part, if_true]
          have := ih { r with dir := write r.dir m c }
          refine ⟨?_, ?_, ?_, ?_, this.tries, this.attempt, this.phase⟩
          · simpa [resultsOf] using this.result
          · simpa [logsOf] using this.logs
          · simpa [eventsOf] using this.events
          · intro n
            rw [this.dir n]
            simp only [if_true, List.cons_append, contentsOf, write, and_true]
            by_cases hn : m = n
            · subst hn; simp only [if_true, List.map_cons, getLastD_cons']
            · rw [if_neg hn, if_neg (fun h => hn h.symm)]
    · -- the part ends the upload
      have hp' : Part.acceptable store p = false := by simpa using hp
      simp only [List.takeWhile_cons, hp', List.dropWhile_cons, Bool.false_eq_true, if_false,
        List.head?_cons, Option.toList_some, List.nil_append]
      cases p with
      | details d =>
        cases d with
        | none =>
          simp only [parts, part]
          refine ⟨?_, ?_, ?_, ?_, rfl, rfl, rfl⟩ <;>
            simp [resultsOf, logsOf, eventsOf, contentsOf]
        | some d => simp [Part.acceptable] at hp'
      | logs t w =>
        simp only [Part.acceptable] at hp'
        subst hp'
        simp only [parts, part, Bool.false_eq_true, if_false]
        refine ⟨?_, ?_, ?_, ?_, rfl, rfl, rfl⟩ <;>
            simp [resultsOf, logsOf, eventsOf, contentsOf]
      | tracing t =>
        cases t with
        | events es => simp [Part.acceptable] at hp'
        | undecodable =>
          simp only [parts, part]
          refine ⟨?_, ?_, ?_, ?_, rfl, rfl, rfl⟩ <;>
            simp [resultsOf, logsOf, eventsOf, contentsOf]
        | panics =>
          simp only [parts, part]
          refine ⟨?_, ?_, ?_, ?_, rfl, rfl, rfl⟩ <;>
            simp [resultsOf, logsOf, eventsOf, contentsOf]
      | file m c cr w =>
        cases store with
        | false =>
          have hw : w = false := by simpa [Part.acceptable] using hp'
          subst hw
          simp only [parts, part, Bool.false_eq_true, if_false]
          refine ⟨?_, ?_, ?_, ?_, rfl, rfl, rfl⟩ <;>
            simp [resultsOf, logsOf, eventsOf]
        | true =>
          cases cr with
          | false =>
            simp only [parts, part, Bool.false_eq_true, if_false, if_true]
            refine ⟨?_, ?_, ?_, ?_, rfl, rfl, rfl⟩ <;>
              simp [resultsOf, logsOf, eventsOf, contentsOf]
          | true =>
            have hw : w = false := by simpa [Part.acceptable] using hp'
            subst hw
            simp only [parts, part, Bool.false_eq_true, if_false, if_true]
            refine ⟨?_, ?_, ?_, ?_, rfl, rfl, rfl⟩
            · simp [resultsOf]
            · simp [logsOf]
            · simp [eventsOf]
            · intro n
              simp only [List.nil_append, if_true, contentsOf, write, and_true]
              by_cases hn : m = n
              · subst hn; simp
              · rw [if_neg hn, if_neg (fun h => hn h.symm)]; simp

theorem processRun_spec (store : Bool) (r : Run) (u : Upload) :
    PartsSpec store u.runner { r with dir := fun n => if n ∈ u.stuck then r.dir n else none }
      (processRun store r u).1 (received store u) (broken store u).toList := by
  unfold processRun received broken
  cases hm : u.mkdirOk with
  | false =>
    refine ⟨?_, ?_, ?_, ?_, rfl, rfl, rfl⟩ <;> simp [resultsOf, logsOf, eventsOf, contentsOf]
  | true =>
    cases hp : u.multipart with
    | false =>
      refine ⟨?_, ?_, ?_, ?_, rfl, rfl, rfl⟩ <;> simp [resultsOf, logsOf, eventsOf, contentsOf]
    | true => simpa using parts_spec store u.runner u.ended u.parts _

/-! ## Requeue and close keep what was received -/

theorem requeue_result (e full last r) : (requeue e full last r).result = r.result := by
  simp only [requeue]; split
  · rfl
  · split <;> rfl

theorem requeue_logs (e full last r) : (requeue e full last r).logs = r.logs := by
  simp only [requeue]; split
  · rfl
  · split <;> rfl

theorem requeue_events (e full last r) : (requeue e full last r).events = r.events := by
  simp only [requeue]; split
  · rfl
  · split <;> rfl

theorem close_dir (e r) (n : String) (h : ¬ Generated n) : (close e r).dir n = r.dir n := by
  simp only [Generated, not_or] at h
  simp [close, write, h]

theorem requeue_dir (e full last r) (n : String) (h : ¬ Generated n) :
    (requeue e full last r).dir n = r.dir n := by
  simp only [requeue]; split
  · rw [close_dir _ _ _ h]
  · split
    · rw [close_dir _ _ _ h]
    · rfl

/-- what a closed run's directory holds besides the uploaded files -/
def Sealed (e : Render) (r : Run) : Prop :=
  r.phase = .closed →
    r.dir "details.json" = some (e.details r.result) ∧
    r.dir "logs.txt.gz" = some (e.logs r.logs) ∧
    r.dir "tracing.json.gz" = some (e.tracing r.events)

theorem close_sealed (e r) : Sealed e (close e r) := by
  intro _; simp [close, write]

theorem requeue_sealed (e full last r) : Sealed e (requeue e full last r) := by
  simp only [requeue]; split
  · exact close_sealed _ _
  · split
    · exact close_sealed _ _
    · intro h; simp at h

/-! ## One event -/

/-- The uploads handled by one event. -/
theorem handled_single (ev : Event) (s : Option Nat) :
    handled [(ev, s)] = match ev with
      | .upload _ u _ => if s = some 404 then [] else [u]
      | _ => [] := by
  cases ev <;> simp [handled]

theorem handled_cons (x : Event × Option Nat) (l) : handled (x :: l) = handled [x] ++ handled l := by
  obtain ⟨ev, s⟩ := x
  cases ev <;> simp [handled]
  split <;> simp

theorem processRun_code (store r u c retry) (h : (processRun store r u).2 = .status c retry) :
    c ≠ 404 := by
  have hpart : ∀ p r', ∀ o, (part store u.runner r' p).2 = some o → o ≠ .status 404 retry := by
    intro p r' o
    cases p with
    | details d => cases d <;> simp [part] <;> rintro rfl <;> simp
    | logs t w => cases w <;> simp [part] <;> rintro rfl <;> simp
    | tracing t => cases t <;> simp [part] <;> rintro rfl <;> simp
    | file n cc cr w =>
      cases store <;> cases cr <;> cases w <;> simp [part] <;> rintro rfl <;> simp
  have hparts : ∀ ps r', (parts store u.runner u.ended r' ps).2 ≠ .status 404 retry := by
    intro ps
    induction ps with
    | nil => intro r'; simp only [parts]; split <;> [split; skip] <;> simp
    | cons p ps ih =>
      intro r'
      have hp := hpart p r'
      simp only [parts]
      rcases hx : part store u.runner r' p with ⟨r'', _ | o⟩
      · exact ih r''
      · rw [hx] at hp; exact hp o rfl
  rintro rfl
  revert h
  simp only [processRun]
  split
  · split
    · exact hparts _ _
    · simp
  · simp

theorem step_spec (e store r ev) :
    let r' := (step e store r ev).1
    let us := handled [(ev, (step e store r ev).2)]
    r'.result = (us.flatMap (fun u => resultsOf u.runner (received store u))).getLastD r.result ∧
    r'.logs = r.logs ++ us.flatMap (fun u => logsOf u.runner (received store u)) ∧
    r'.events = r.events ++ us.flatMap (fun u => eventsOf (received store u)) ∧
    (∀ n, ¬ Generated n → r'.dir n = match us.getLast? with
      | none => r.dir n
      | some u => if store then
          ((contentsOf n (received store u ++ (broken store u).toList)).map some).getLastD
            (if n ∈ u.stuck then r.dir n else none)
        else if n ∈ u.stuck then r.dir n else none) ∧
    (Sealed e r → Sealed e r') := by
  cases ev with
  | taken =>
    simp only [step, handled]
    split
    · refine ⟨by simp, by simp, by simp, by simp, ?_⟩
      intro _ h; simp at h
    · simp
  | timeout full =>
    simp only [step, handled]
    split
    · refine ⟨by simp [requeue_result], by simp [requeue_logs], by simp [requeue_events], ?_, ?_⟩
      · intro n hn; simp [requeue_dir _ _ _ _ _ hn]
      · intro _; exact requeue_sealed _ _ _ _
    · simp
  | upload a u full =>
    simp only [step]
    split
    · rename_i hcond
      have hs := processRun_spec store r u
      have hc := processRun_code store r u
      rcases hx : processRun store r u with ⟨r', o⟩
      rw [hx] at hs hc
      have hr := hs.result
      have hl := hs.logs
      have he := hs.events
      have hd := hs.dir
      have hp := hs.phase
      simp only at hr hl he hd hp
      cases o with
      | panicked =>
        refine ⟨?_, ?_, ?_, ?_, ?_⟩
        · simp [handled, hr]
        · simp [handled, hl]
        · simp [handled, he]
        · intro n _; simp [handled, hd n]
        · intro _ hcl
          change r'.phase = .closed at hcl
          rw [hp, hcond.1] at hcl
          exact absurd hcl (by decide)
      | status c retry =>
        have hc' : c ≠ 404 := hc c retry rfl
        cases retry with
        | true =>
          refine ⟨?_, ?_, ?_, ?_, fun _ => requeue_sealed _ _ _ _⟩
          · simp [handled, hc', requeue_result, hr]
          · simp [handled, hc', requeue_logs, hl]
          · simp [handled, hc', requeue_events, he]
          · intro n hn; simp [handled, hc', requeue_dir _ _ _ _ _ hn, hd n]
        | false =>
          refine ⟨?_, ?_, ?_, ?_, fun _ => close_sealed _ _⟩
          · simp [handled, hc', close, hr]
          · simp [handled, hc', close, hl]
          · simp [handled, hc', close, he]
          · intro n hn; simp [handled, hc', close_dir _ _ _ hn, hd n]
    · simp [handled]

theorem getLastD_append {α} (a b : List α) (d : α) :
    (a ++ b).getLastD d = b.getLastD (a.getLastD d) := by
  induction a generalizing d with
  | nil => rfl
  | cons x a ih => rw [List.cons_append, getLastD_cons', getLastD_cons', ih]

/-! ## C77: where the recorded result comes from -/

/-- The result of a run, at any point of any history, is the last `details.json` received
in any upload handled so far, whether or not that upload was accepted in the end, and the
initial result if there was none. -/
theorem C77_result_partial (e : Render) (store : Bool) (r : Run) (evs : List Event) :
    (run e store r evs).1.result =
      ((handled (run e store r evs).2).flatMap
        (fun u => resultsOf u.runner (received store u))).getLastD r.result := by
  induction evs generalizing r with
  | nil => rfl
  | cons ev evs ih =>
    simp only [run]
    rw [handled_cons, List.flatMap_append, getLastD_append]
    rw [← (step_spec e store r ev).1]
    exact ih _

/-- If the last upload handled carries a result, that is the one recorded. -/
theorem C77_finishing_upload_partial (e : Render) (store : Bool) (r : Run) (evs : List Event)
    (u : Upload) (hu : (handled (run e store r evs).2).getLast? = some u)
    (d : Result) (hd : (resultsOf u.runner (received store u)).getLast? = some d) :
    (run e store r evs).1.result = d := by
  rw [C77_result_partial]
  obtain ⟨us, hus⟩ : ∃ us, handled (run e store r evs).2 = us ++ [u] := by
    rw [List.getLast?_eq_some_iff] at hu; exact hu
  rw [hus, List.flatMap_append, getLastD_append, List.getLastD_eq_getLast?]
  simp [hd]

/-- A run for which no `details.json` was ever received ends with the initial result, JE with
score 0. -/
theorem C77_no_result_is_judge_error (e : Render) (store : Bool) (retries : Int) (dir)
    (evs : List Event)
    (h : ∀ u ∈ handled (run e store (fresh retries dir) evs).2,
      ∀ d, Part.details (some d) ∉ u.parts) :
    (run e store (fresh retries dir) evs).1.result = ⟨"JE", 0, "", ""⟩ := by
  rw [C77_result_partial]
  have hnil : ∀ s ps, (∀ d, Part.details (some d) ∉ ps) → resultsOf s ps = [] := by
    intro s ps
    induction ps with
    | nil => intro _; rfl
    | cons p ps ih =>
      intro hps
      have ih' := ih (fun d hd => hps d (List.mem_cons_of_mem _ hd))
      cases p with
      | details d =>
        cases d with
        | none => simpa [resultsOf] using ih'
        | some d => exact absurd List.mem_cons_self (hps d)
      | _ => simpa [resultsOf] using ih'
  have : (handled (run e store (fresh retries dir) evs).2).flatMap
      (fun u => resultsOf u.runner (received store u)) = [] := by
    rw [List.flatMap_eq_nil_iff]
    intro u hu
    apply hnil
    intro d hd
    apply h u hu d
    unfold received at hd
    split at hd
    · exact (List.takeWhile_sublist _).mem hd
    · simp at hd
  rw [this]; rfl

/-! ### The witnesses: a result survives the upload that brought it -/

def plainRender : Render := ⟨fun r => r.verdict, fun _ => "logs", fun _ => "trace"⟩

/-- sends its parts in the order of `gradeAndUploadResults` (cmd/omegaup-runner/main.go:540-591),
the result among them, and is cut in the middle of the logs -/
def cutUpload : Upload :=
  ⟨"runner1", [], true, true, [.file "files.zip" "one" true true, .details (some ⟨"AC", 1, "", ""⟩),
    .logs "par" false], true⟩

/-- sends half of the files and is cut -/
def cutFiles : Upload :=
  ⟨"runner2", [], true, true, [.file "files.zip" "tw" true false], true⟩

/-- sends files but no result -/
def emptyUpload : Upload :=
  ⟨"runner2", [], true, true, [.file "b.out" "xyz" true true], true⟩

/-- never sends anything readable -/
def garbageUpload : Upload := ⟨"runner2", [], true, false, [], true⟩

/-- The plain claim is false (1): every upload was answered 400, i.e. rejected, and yet the run
is closed as AC with full score. -/
theorem C77_rejected_result_recorded :
    ∃ evs, let h := run plainRender true (fresh 2 fun _ => none) evs
      h.1.phase = .closed ∧ h.1.result = ⟨"AC", 1, "runner1", ""⟩ ∧
      (∀ x ∈ h.2, x.2 = none ∨ x.2 = some 400) ∧ (handled h.2).length = 2 :=
  ⟨[.taken, .upload 0 cutUpload false, .taken, .upload 1 garbageUpload false], by decide +kernel⟩

/-- The plain claim is false (2): the run is closed by an accepted upload of `runner2`, its
files are those of `runner2`, its result is the one of the rejected upload of `runner1`. -/
theorem C77_result_and_files_of_different_attempts :
    ∃ evs, let h := run plainRender true (fresh 3 fun _ => none) evs
      h.1.phase = .closed ∧ h.1.result = ⟨"AC", 1, "runner1", ""⟩ ∧
      h.2.getLast?.map (·.2) = some (some 200) ∧
      h.1.dir "files.zip" = none ∧ h.1.dir "b.out" = some "xyz" :=
  ⟨[.taken, .upload 0 cutUpload false, .taken, .upload 1 emptyUpload false], by decide +kernel⟩

/-- The plain claim is false (3), with uploads as a real runner sends them: the run is closed with
the AC of `runner1` and half of the files of `runner2`. -/
theorem C77_result_with_half_of_other_files :
    ∃ evs, let h := run plainRender true (fresh 2 fun _ => none) evs
      h.1.phase = .closed ∧ h.1.result = ⟨"AC", 1, "runner1", ""⟩ ∧
      h.1.dir "files.zip" = some "tw" :=
  ⟨[.taken, .upload 0 cutUpload false, .taken, .upload 1 cutFiles false], by decide +kernel⟩

/-! ## C78: the files kept are those of the last upload -/

/-- If the grade directory can always be emptied, then at any point of any history the files in
it, besides the three written by the grader itself, are exactly those of the last upload handled
(the last one of each name; the one whose reception failed with what was received of it), and
none at all if files are not stored. -/
theorem C78_files (e : Render) (store : Bool) (r : Run) (evs : List Event)
    (hstuck : ∀ u ∈ handled (run e store r evs).2, u.stuck = [])
    (n : String) (hn : ¬ Generated n) :
    (run e store r evs).1.dir n =
      match (handled (run e store r evs).2).getLast? with
      | none => r.dir n
      | some u => if store then
          (contentsOf n (received store u ++ (broken store u).toList)).getLast? else none := by
  induction evs generalizing r with
  | nil => rfl
  | cons ev evs ih =>
    simp only [run] at hstuck ⊢
    rw [handled_cons] at hstuck ⊢
    have ih' := ih (step e store r ev).1 (fun u hu => hstuck u (List.mem_append_right _ hu))
    rw [ih']
    have hs := (step_spec e store r ev).2.2.2.1 n hn
    rw [List.getLast?_append]
    cases h2 : (handled (run e store (step e store r ev).1 evs).2).getLast? with
    | some u => rfl
    | none =>
      simp only [Option.or]
      rw [hs]
      cases h1 : (handled [(ev, (step e store r ev).2)]).getLast? with
      | none => rfl
      | some u =>
        have hu : u.stuck = [] :=
          hstuck u (List.mem_append_left _ (List.mem_of_getLast? h1))
        simp only [hu, List.not_mem_nil, if_false]
        cases store with
        | false => rfl
        | true =>
          simp only [if_true, List.getLastD_eq_getLast?, List.getLast?_map]
          cases (contentsOf n (received true u ++ (broken true u).toList)).getLast? <;> rfl

/-- The three files of a closed run are those written from its final state. -/
theorem C78_generated (e : Render) (store : Bool) (r : Run) (h0 : r.phase ≠ .closed)
    (evs : List Event) (hc : (run e store r evs).1.phase = .closed) :
    let r' := (run e store r evs).1
    r'.dir "details.json" = some (e.details r'.result) ∧
    r'.dir "logs.txt.gz" = some (e.logs r'.logs) ∧
    r'.dir "tracing.json.gz" = some (e.tracing r'.events) := by
  have : ∀ evs r, Sealed e r → Sealed e (run e store r evs).1 := by
    intro evs
    induction evs with
    | nil => intro r h; exact h
    | cons ev evs ih => intro r h; exact ih _ ((step_spec e store r ev).2.2.2.2 h)
  exact this evs r (fun h => absurd h h0) hc

/-- The emptying matters: a file that cannot be deleted stays among the files of the next
attempt. -/
theorem C78_stuck_file :
    ∃ evs, let h := run plainRender true (fresh 3 fun _ => none) evs
      h.1.phase = .closed ∧ h.1.dir "files.zip" = some "one" ∧ h.1.result.judgedBy = "runner3" :=
  ⟨[.taken, .upload 0 cutUpload false, .taken,
    .upload 1 ⟨"runner3", ["files.zip"], true, true, [.details (some ⟨"WA", 0, "", ""⟩)], true⟩ false],
    by decide +kernel⟩

/-- The hypotheses of `C78_files` and `C78_generated` hold in a history with a rejected and an
accepted upload. -/
example :
    let h := run plainRender true (fresh 3 fun _ => none) [.taken, .upload 0 cutUpload false, .taken,
      .upload 1 emptyUpload false]
    (∀ u ∈ handled h.2, u.stuck = []) ∧ (handled h.2).length = 2 ∧ h.1.phase = .closed := by
  decide +kernel

/-! ## C79: who judged the run -/

theorem resultsOf_sender (s : String) (ps : List Part) : ∀ d ∈ resultsOf s ps, d.judgedBy = s := by
  induction ps with
  | nil => simp [resultsOf]
  | cons p ps ih =>
    cases p with
    | details d =>
      cases d with
      | none => simpa [resultsOf] using ih
      | some d =>
        intro x hx
        rcases List.mem_cons.1 hx with rfl | hx'
        · rfl
        · exact ih x hx'
    | _ => simpa [resultsOf] using ih

/-- The name recorded with the result of a run is the authenticated name of the sender of one of
the uploads, whose upload contains a `details.json` with exactly that verdict, score and contents;
the name written inside the upload is never used. -/
theorem C79_judged_by (e : Render) (store : Bool) (retries : Int) (dir) (evs : List Event) :
    let h := run e store (fresh retries dir) evs
    h.1.result = ⟨"JE", 0, "", ""⟩ ∨
    ∃ u ∈ handled h.2, h.1.result.judgedBy = u.runner ∧
      ∃ claimed, Part.details (some ⟨h.1.result.verdict, h.1.result.score, claimed,
        h.1.result.rest⟩) ∈ u.parts := by
  intro h
  have hr := C77_result_partial e store (fresh retries dir) evs
  change h.1.result = ((handled h.2).flatMap _).getLastD _ at hr
  have hmem : ∀ s ps, ∀ d ∈ resultsOf s ps, ∃ c,
      Part.details (some ⟨d.verdict, d.score, c, d.rest⟩) ∈ ps := by
    intro s ps
    induction ps with
    | nil => simp [resultsOf]
    | cons p ps ih =>
      have ih' : ∀ d ∈ resultsOf s ps, ∃ c,
          Part.details (some ⟨d.verdict, d.score, c, d.rest⟩) ∈ p :: ps := by
        intro d hd
        obtain ⟨c, hc⟩ := ih d hd
        exact ⟨c, List.mem_cons_of_mem _ hc⟩
      cases p with
      | details d =>
        cases d with
        | none => simpa [resultsOf] using ih'
        | some d =>
          intro x hx
          rcases List.mem_cons.1 hx with rfl | hx'
          · exact ⟨d.judgedBy, List.mem_cons_self⟩
          · exact ih' x hx'
      | _ => exact ih'
  cases hl : ((handled h.2).flatMap (fun u => resultsOf u.runner (received store u))).getLast? with
  | none =>
    left
    rw [hr, List.getLastD_eq_getLast?, hl]; rfl
  | some d =>
    right
    rw [List.getLastD_eq_getLast?, hl] at hr
    simp only [Option.getD_some] at hr
    obtain ⟨u, hu, hdu⟩ := List.mem_flatMap.1 (List.mem_of_getLast? hl)
    refine ⟨u, hu, ?_, ?_⟩
    · rw [hr]; exact resultsOf_sender _ _ d hdu
    · obtain ⟨c, hc⟩ := hmem _ _ d hdu
      refine ⟨c, ?_⟩
      rw [hr]
      unfold received at hc
      split at hc
      · exact (List.takeWhile_sublist _).mem hc
      · simp at hc

/-- A runner that claims another name is recorded under its own. -/
example : (run plainRender true (fresh 1 fun _ => none) [.taken, .upload 0
    ⟨"runner1", [], true, true, [.details (some ⟨"WA", 0, "somebody else", "x"⟩)], true⟩ false]).1.result
    = ⟨"WA", 0, "runner1", "x"⟩ := by decide +kernel

/-! ## C80: logs and traces of every attempt are kept -/

/-- At any point the logs and the trace of a run are those it had plus, in order and once each,
every log and every event received in an upload handled since, each log under the name of its
sender. -/
theorem C80_logs_and_traces (e : Render) (store : Bool) (r : Run) (evs : List Event) :
    let h := run e store r evs
    h.1.logs = r.logs ++ (handled h.2).flatMap (fun u => logsOf u.runner (received store u)) ∧
    h.1.events = r.events ++ (handled h.2).flatMap (fun u => eventsOf (received store u)) := by
  induction evs generalizing r with
  | nil => simp [run, handled]
  | cons ev evs ih =>
    simp only [run]
    rw [handled_cons]
    have ih' := ih (step e store r ev).1
    simp only at ih'
    have hs := step_spec e store r ev
    simp only at hs
    rw [ih'.1, ih'.2, hs.2.1, hs.2.2.1, List.flatMap_append, List.flatMap_append,
      List.append_assoc, List.append_assoc]
    exact ⟨rfl, rfl⟩

/-- Two attempts, both with logs: both are kept. -/
example : (run plainRender true (fresh 3 fun _ => none)
    [.taken, .upload 0 ⟨"r1", [], true, true, [.logs "one" true, .tracing (.events ["e1"])], false⟩ false,
     .taken, .upload 1 ⟨"r2", [], true, true,
        [.tracing (.events ["e2"]), .logs "two" true, .details (some ⟨"AC", 1, "", ""⟩)], true⟩ false]).1.logs
    = [("r1", "one"), ("r2", "two")] := by decide +kernel

/-! ## C81: what the response to an upload means -/

/-- The whole upload is received in full. -/
def Complete (store : Bool) (u : Upload) : Prop :=
  u.mkdirOk ∧ u.multipart ∧ (∀ p ∈ u.parts, Part.acceptable store p) ∧ u.ended

/-- The outcome of the loop, given the first part that is not acceptable. -/
def outcomeOf (store ended : Bool) (verdict : String) : Option Part → Outcome
  | none => if ended then .status 200 (verdict = "JE") else .status 400 true
  | some (.tracing .panics) => .panicked
  | some (.file _ _ created _) => if store && !created then .status 500 false else .status 400 true
  | some _ => .status 400 true

theorem dropWhile_nil_iff {α} (p : α → Bool) (l : List α) :
    l.dropWhile p = [] ↔ ∀ x ∈ l, p x = true := by
  induction l with
  | nil => simp
  | cons a l ih =>
    rw [List.dropWhile_cons]
    split
    · rename_i ha; rw [ih]; simp [ha]
    · rename_i ha; simp [ha]

theorem parts_outcome (store : Bool) (runner : String) (ended : Bool) (ps : List Part) (r : Run) :
    (parts store runner ended r ps).2 =
      outcomeOf store ended
        ((resultsOf runner (ps.takeWhile (Part.acceptable store))).getLastD r.result).verdict
        (ps.dropWhile (Part.acceptable store)).head? := by
  induction ps generalizing r with
  | nil =>
    simp only [parts, List.dropWhile_nil, List.head?_nil, List.takeWhile_nil, resultsOf, outcomeOf]
    cases ended
    · simp
    · by_cases hv : r.result.verdict = "JE" <;> simp [hv]
  | cons p ps ih =>
    cases p with
    | details d =>
      cases d with
      | none => simp [parts, part, Part.acceptable, outcomeOf]
      | some d =>
        simp only [parts, part]
        rw [ih]
        simp only [List.takeWhile_cons, List.dropWhile_cons, Part.acceptable, Option.isSome_some,
          if_true, resultsOf, getLastD_cons']
    | logs t w =>
      cases w with
      | false => simp [parts, part, Part.acceptable, outcomeOf]
      | true =>
        simp only [parts, part, if_true]
        rw [ih]
        simp only [List.takeWhile_cons, List.dropWhile_cons, Part.acceptable, if_true, resultsOf]
    | tracing t =>
      cases t with
      | events es =>
        simp only [parts, part]
        rw [ih]
        simp only [List.takeWhile_cons, List.dropWhile_cons, Part.acceptable, if_true, resultsOf]
      | undecodable => simp [parts, part, Part.acceptable, outcomeOf]
      | panics => simp [parts, part, Part.acceptable, outcomeOf]
    | file n c cr w =>
      cases store <;> cases cr <;> cases w <;>
        first
          | (simp [parts, part, Part.acceptable, outcomeOf]; done)
          | (simp only [parts, part, if_true, Bool.false_eq_true, if_false]; rw [ih]
             simp [List.takeWhile_cons, List.dropWhile_cons, Part.acceptable, resultsOf])

/-- An upload for an attempt that is not in flight is answered 404 and changes nothing. -/
theorem C81_unknown_attempt (e store r a u full) (h : ¬ (r.phase = .inflight ∧ a = r.attempt)) :
    step e store r (.upload a u full) = (r, some 404) := by
  simp [step, h]

/-- The responses to an upload for the attempt in flight: 200 exactly when it was received in
full; 500 exactly when the directory or a file could not be created; no response exactly when the
trace makes the decoder panic; 400 otherwise. -/
theorem C81_response (e : Render) (store : Bool) (r : Run) (u : Upload) (full : Bool)
    (h : r.phase = .inflight) :
    let s := (step e store r (.upload r.attempt u full)).2
    (s = some 200 ↔ Complete store u) ∧
    (s = some 500 ↔ u.mkdirOk = false ∨
      ∃ n c w, store = true ∧ broken store u = some (.file n c false w)) ∧
    (s = none ↔ broken store u = some (.tracing .panics)) ∧
    (s = none ∨ s = some 200 ∨ s = some 400 ∨ s = some 500) := by
  have key : (step e store r (.upload r.attempt u full)).2 =
      match (processRun store r u).2 with
      | .panicked => none
      | .status c _ => some c := by
    simp only [step, h, and_self, if_true]
    rcases processRun store r u with ⟨r', _ | _⟩
    · simp only; split <;> rfl
    · rfl
  simp only
  rw [key]
  unfold processRun broken Complete
  cases hm : u.mkdirOk with
  | false => simp
  | true =>
    cases hp : u.multipart with
    | false => simp
    | true =>
      simp only [if_true, Bool.and_self, true_and]
      rw [parts_outcome]
      cases hb : (u.parts.dropWhile (Part.acceptable store)).head? with
      | none =>
        simp only [outcomeOf]
        have hall : ∀ p ∈ u.parts, Part.acceptable store p = true := by
          rw [List.head?_eq_none_iff, dropWhile_nil_iff] at hb
          exact hb
        cases hen : u.ended with
        | false => simp
        | true => simpa using hall
      | some p =>
        have hne : ¬ ∀ q ∈ u.parts, Part.acceptable store q = true := by
          intro hall
          have : u.parts.dropWhile (Part.acceptable store) = [] :=
            (dropWhile_nil_iff _ _).2 hall
          rw [this] at hb; simp at hb
        have hacc : Part.acceptable store p = false := by
          have := List.head?_dropWhile_not (Part.acceptable store) u.parts
          rw [hb] at this; simpa using this
        cases p with
        | details d => simp [outcomeOf, hne]
        | logs t w => simp [outcomeOf, hne]
        | tracing t =>
          cases t with
          | events es => simp [Part.acceptable] at hacc
          | undecodable => simp [outcomeOf, hne]
          | panics => simp [outcomeOf, hne]
        | file n c cr w =>
          cases store <;> cases cr <;> simp [outcomeOf, hne]

/-- What happens to the run: after 500 it is closed; after 400 it is queued again under a new
attempt with one try less, or closed if that was its last try or the queue is full; after 200 it is
closed, unless the recorded verdict is JE and it had tries left, in which case it is queued again
with exactly one try left; after a panic it is still in flight, under the same attempt. -/
theorem C81_next (e : Render) (store : Bool) (r : Run) (u : Upload) (full : Bool)
    (h : r.phase = .inflight) :
    let r' := (step e store r (.upload r.attempt u full)).1
    match (step e store r (.upload r.attempt u full)).2 with
    | none => r'.phase = .inflight ∧ r'.attempt = r.attempt ∧ r'.tries = r.tries
    | some 500 => r'.phase = .closed
    | some 400 => if r.tries ≤ 1 ∨ full then r'.phase = .closed
        else r'.phase = .queued ∧ r'.tries = r.tries - 1 ∧ r'.attempt = r.attempt + 1
    | some 200 => if r'.result.verdict = "JE" ∧ 1 < r.tries ∧ full = false then
          r'.phase = .queued ∧ r'.tries = 1 ∧ r'.attempt = r.attempt + 1
        else r'.phase = .closed
    | some _ => False := by
  have hs := processRun_spec store r u
  have ho : ∀ c retry, (processRun store r u).2 = .status c retry →
      (c = 200 ∧ (retry = true ↔ (processRun store r u).1.result.verdict = "JE")) ∨
      (c = 400 ∧ retry = true) ∨ (c = 500 ∧ retry = false) := by
    intro c retry
    have hr := hs.result
    revert hr
    unfold processRun received
    cases hm : u.mkdirOk with
    | false => simp; rintro _ rfl rfl; simp
    | true =>
      cases hp : u.multipart with
      | false => simp; rintro _ rfl rfl; simp
      | true =>
        simp only [if_true, Bool.and_self]
        rw [parts_outcome]
        intro hr
        unfold outcomeOf
        split
        · rw [← hr]
          split
          · intro hh; injection hh with h1 h2; left; subst h1 h2; simp
          · intro hh; injection hh with h1 h2; subst h1 h2; simp
        · simp
        · split <;> (intro hh; injection hh with h1 h2; subst h1 h2; simp)
        · intro hh; injection hh with h1 h2; subst h1 h2; simp
  have htr : (processRun store r u).1.tries = r.tries := hs.tries
  have hat : (processRun store r u).1.attempt = r.attempt := hs.attempt
  have hph : (processRun store r u).1.phase = r.phase := hs.phase
  rcases hx : processRun store r u with ⟨q, o⟩
  rw [hx] at ho htr hat hph
  simp only at ho htr hat hph
  have hstep : step e store r (.upload r.attempt u full) =
      match (q, o) with
      | (r', .panicked) => (r', none)
      | (r', .status c retry) =>
          if retry then (requeue e full (c = 200) r', some c)
          else (close e r', some c) := by
    simp only [step, h, and_self, if_true, hx]
    cases o <;> rfl
  rw [hstep]
  cases o with
  | panicked => exact ⟨hph.trans h, hat, htr⟩
  | status c retry =>
    have hcl : ∀ q, (close e q).phase = .closed := fun _ => rfl
    rcases ho c retry rfl with ⟨rfl, hj⟩ | ⟨rfl, rfl⟩ | ⟨rfl, rfl⟩
    · cases retry with
      | false =>
        have hnj : ¬ q.result.verdict = "JE" := fun hv => by simpa using hj.2 hv
        simp [close, hnj]
      | true =>
        have hje := hj.1 rfl
        simp only [if_true, decide_true]
        rw [requeue_result]
        simp only [hje, true_and]
        simp only [requeue, htr]
        by_cases ht : r.tries - 1 ≤ 0
        · rw [if_pos ht, if_neg (fun hh => by omega)]; rfl
        · rw [if_neg ht]
          cases full with
          | true => simp [close]
          | false =>
            have : 1 < r.tries := by omega
            simp [this, hat]
    · simp only [if_true]
      simp only [requeue, htr]
      by_cases ht : r.tries - 1 ≤ 0
      · rw [if_pos ht, if_pos (Or.inl (by omega))]; rfl
      · rw [if_neg ht]
        cases full with
        | true => simp [close]
        | false =>
          have : ¬ r.tries ≤ 1 := by omega
          simp [this, hat]
    · simp [close]

/-- All four kinds of response occur for a run in flight. -/
example : let r := (step plainRender true (fresh 3 fun _ => none) .taken).1
    r.phase = .inflight ∧
    (step plainRender true r (.upload 0 emptyUpload false)).2 = some 200 ∧
    (step plainRender true r (.upload 0 cutUpload false)).2 = some 400 ∧
    (step plainRender true r (.upload 0 { emptyUpload with mkdirOk := false } false)).2 = some 500 ∧
    (step plainRender true r (.upload 0 { emptyUpload with parts := [.tracing .panics] } false)).2
      = none := by decide +kernel

end Quark.Upload
