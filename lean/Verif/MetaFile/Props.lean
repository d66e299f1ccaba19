import Verif.MetaFile.Model
import Mathlib.Order.Lattice
import Mathlib.Data.List.MinMax

namespace Quark.MetaFile

/-! ### Specification

A meta file, read independently of the parser: its lines, the key and value of each line, and the
last value recorded for a set of keys. -/

/-- `file` consists of the lines `ls`: each is followed by a line feed, except that the last may
lack it when it is not empty. -/
inductive HasLines : List Char → List (List Char) → Prop
  | nil : HasLines [] []
  | last (l : List Char) (hne : l ≠ []) (hnl : '\n' ∉ l) : HasLines l [l]
  | line (l rest : List Char) (ls : List (List Char)) (hnl : '\n' ∉ l) (h : HasLines rest ls) :
      HasLines (l ++ '\n' :: rest) (l :: ls)

/-- The line, without an optional trailing carriage return, reads `key:value`, the key having no
colon. -/
def IsField (line key value : List Char) : Prop :=
  ':' ∉ key ∧ (line = key ++ ':' :: value ∧ line.getLast? ≠ some '\r' ∨
    line = key ++ ':' :: value ++ ['\r'])

/-- The fields of the file, in order. -/
def HasFields (file : List Char) (fields : List (List Char × List Char)) : Prop :=
  ∃ ls, HasLines file ls ∧ (∀ l ∈ ls, l.length < 65536) ∧
    List.Forall₂ (fun l (f : List Char × List Char) => IsField l f.1 f.2) ls fields

/-- The last value with key `key`. -/
def lastValue (fields : List (List Char × List Char)) (key : String) : Option (List Char) :=
  ((fields.filter fun f => f.1 == key.toList).map Prod.snd).getLast?

/-- The last signal reported, by name or by number. -/
def lastSignal (fields : List (List Char × List Char)) : Option (List Char) :=
  ((fields.filterMap fun f =>
    if f.1 = "signal".toList then some f.2
    else if f.1 = "signal_number".toList then some ("SIGNAL ".toList ++ f.2) else none)).getLast?

/-- The exit status: that of the last `status` line, -1 without one. -/
def exitOf (fields : List (List Char × List Char)) : Int :=
  ((lastValue fields "status").map atoi).getD (-1)

/-- The memory: that of the last `mem` line, 0 without one. -/
def memOf (fields : List (List Char × List Char)) : Int :=
  ((lastValue fields "mem").map atoi).getD 0

/-- The documented decision table. -/
inductive Decision (limit : Option Int) (lang : String) (oom allowNonZero : Bool)
    (fields : List (List Char × List Char)) : Verdict → Prop
  | mle (lim) (h : limit = some lim) (hpos : 0 < lim)
      (h : lim < memOf fields ∨ lang = "java" ∧ exitOf fields ≠ 0 ∧ oom = true) :
      Decision limit lang oom allowNonZero fields .MLE
  | karel (hm : ∀ lim, limit = some lim → 0 < lim →
        ¬ (lim < memOf fields ∨ lang = "java" ∧ exitOf fields ≠ 0 ∧ oom = true))
      (hl : lang = "kj" ∨ lang = "kp") (he : exitOf fields = 1) :
      Decision limit lang oom allowNonZero fields .TLE
  | signal (s) (hm : ∀ lim, limit = some lim → 0 < lim →
        ¬ (lim < memOf fields ∨ lang = "java" ∧ exitOf fields ≠ 0 ∧ oom = true))
      (hk : ¬ ((lang = "kj" ∨ lang = "kp") ∧ exitOf fields = 1)) (hs : lastSignal fields = some s) :
      Decision limit lang oom allowNonZero fields (signalVerdict s)
  | ok (hm : ∀ lim, limit = some lim → 0 < lim →
        ¬ (lim < memOf fields ∨ lang = "java" ∧ exitOf fields ≠ 0 ∧ oom = true))
      (hk : ¬ ((lang = "kj" ∨ lang = "kp") ∧ exitOf fields = 1)) (hs : lastSignal fields = none)
      (he : exitOf fields = 0 ∨ allowNonZero = true) :
      Decision limit lang oom allowNonZero fields .OK
  | rte (hm : ∀ lim, limit = some lim → 0 < lim →
        ¬ (lim < memOf fields ∨ lang = "java" ∧ exitOf fields ≠ 0 ∧ oom = true))
      (hk : ¬ ((lang = "kj" ∨ lang = "kp") ∧ exitOf fields = 1)) (hs : lastSignal fields = none)
      (he : ¬ (exitOf fields = 0 ∨ allowNonZero = true)) :
      Decision limit lang oom allowNonZero fields .RTE

/-! ### Lemmas -/

theorem splitLines_acc (acc l rest : List Char) (h : '\n' ∉ l) :
    splitLines acc (l ++ '\n' :: rest) = (acc.reverse ++ l) :: splitLines [] rest := by
  induction l generalizing acc with
  | nil => simp [splitLines]
  | cons c l ih =>
    simp only [List.mem_cons, not_or] at h
    simp only [List.cons_append, splitLines]
    rw [if_neg (fun e => h.1 e.symm), ih _ h.2]
    simp

theorem splitLines_last (acc l : List Char) (h : '\n' ∉ l) (hne : acc.reverse ++ l ≠ []) :
    splitLines acc l = [acc.reverse ++ l] := by
  induction l generalizing acc with
  | nil => simp_all [splitLines]
  | cons c l ih =>
    simp only [List.mem_cons, not_or] at h
    simp only [splitLines]
    rw [if_neg (fun e => h.1 e.symm), ih _ h.2 (by simp)]
    simp

theorem splitLines_of_hasLines {file : List Char} {ls : List (List Char)} (h : HasLines file ls) :
    splitLines [] file = ls := by
  induction h with
  | nil => simp [splitLines]
  | last l hne hnl => simpa using splitLines_last [] l hnl (by simpa using hne)
  | line l rest ls hnl _ ih => rw [splitLines_acc [] l rest hnl, ih]; simp

theorem hasLines_splitLines (acc file : List Char) (h : '\n' ∉ acc) :
    HasLines (acc.reverse ++ file) (splitLines acc file) := by
  induction file generalizing acc with
  | nil =>
    simp only [splitLines, List.append_nil]
    split
    · rename_i h; subst h; exact .nil
    · exact .last _ (by simpa using ‹_›) (by simpa using h)
  | cons c cs ih =>
    simp only [splitLines]
    split
    · rename_i hc
      subst hc
      exact .line _ _ _ (by simpa using h) (by simpa using ih [] (by simp))
    · rename_i hc
      have := ih (c :: acc) (by simp [h, Ne.symm hc])
      simpa using this

theorem splitColon_some {l k v : List Char} :
    splitColon l = some (k, v) ↔ ':' ∉ k ∧ l = k ++ ':' :: v := by
  induction l generalizing k v with
  | nil => simp [splitColon]
  | cons c l ih =>
    simp only [splitColon]
    split
    · rename_i hc
      subst hc
      simp only [Option.some.injEq, Prod.mk.injEq]
      constructor
      · rintro ⟨rfl, rfl⟩; simp
      · rintro ⟨h1, h2⟩
        cases k with
        | nil => simpa using h2
        | cons d k =>
          simp only [List.cons_append, List.cons.injEq] at h2
          exact absurd (List.mem_cons.mpr (Or.inl h2.1)) h1
    · rename_i hc
      simp only [Option.map_eq_some_iff, Prod.mk.injEq, Prod.exists]
      constructor
      · rintro ⟨k', v', h, rfl, rfl⟩
        obtain ⟨h1, h2⟩ := ih.mp h
        exact ⟨by simp [h1, Ne.symm hc], by rw [h2]; simp⟩
      · rintro ⟨h1, h2⟩
        cases k with
        | nil =>
          simp only [List.nil_append, List.cons.injEq] at h2
          exact absurd h2.1 hc
        | cons d k =>
          simp only [List.cons_append, List.cons.injEq] at h2
          simp only [List.mem_cons, not_or] at h1
          exact ⟨k, v, ih.mpr ⟨h1.2, h2.2⟩, by rw [h2.1], rfl⟩

theorem dropCR_append (l : List Char) : dropCR (l ++ ['\r']) = l := by
  simp [dropCR]

theorem dropCR_of_ne (l : List Char) (h : l.getLast? ≠ some '\r') : dropCR l = l := by
  unfold dropCR
  split
  · rename_i h'; exact absurd h' h
  · rfl

theorem isField_iff {l k v : List Char} : splitColon (dropCR l) = some (k, v) ↔ IsField l k v := by
  rw [splitColon_some, IsField]
  refine and_congr_right fun _ => ?_
  by_cases h : l.getLast? = some '\r'
  · obtain ⟨l', rfl⟩ : ∃ l', l = l' ++ ['\r'] := by
      rw [List.getLast?_eq_some_iff] at h; exact h
    rw [dropCR_append]
    simp only [h, ne_eq, not_true_eq_false, and_false, false_or]
    exact ⟨fun e => by rw [e], fun e => List.append_cancel_right (e : l' ++ ['\r'] = (k ++ ':' :: v) ++ ['\r'])⟩
  · rw [dropCR_of_ne _ h]
    simp only [h, ne_eq, not_false_eq_true, and_true]
    constructor
    · exact Or.inl
    · rintro (h' | h')
      · exact h'
      · rw [h', List.getLast?_append] at h; simp at h

theorem scan_fields (m : Meta) (ls : List (List Char)) (fs : List (List Char × List Char))
    (hlen : ∀ l ∈ ls, l.length < 65536)
    (h : List.Forall₂ (fun l (f : List Char × List Char) => IsField l f.1 f.2) ls fs) :
    scan m ls = (fs.foldl (fun m f => applyField m f.1 f.2) m, false) := by
  induction h generalizing m with
  | nil => rfl
  | cons hf _ ih =>
    rename_i l f ls fs _
    have hl : l.length < 65536 := hlen l (by simp)
    rw [scan, if_neg (by unfold maxLine; omega)]
    rw [isField_iff.mpr hf]
    simp only [List.foldl_cons]
    exact ih _ (fun l hl => hlen l (by simp [hl]))

theorem scan_ok (m : Meta) (ls : List (List Char)) (m' : Meta) (h : scan m ls = (m', false)) :
    ∃ fs, (∀ l ∈ ls, l.length < 65536) ∧
      List.Forall₂ (fun l (f : List Char × List Char) => IsField l f.1 f.2) ls fs := by
  induction ls generalizing m with
  | nil => exact ⟨[], by simp, .nil⟩
  | cons l ls ih =>
    rw [scan] at h
    split at h
    · simp at h
    · rename_i hl
      split at h
      · simp at h
      · rename_i k v hf
        obtain ⟨fs, h1, h2⟩ := ih _ h
        refine ⟨(k, v) :: fs, ?_, .cons (isField_iff.mp hf) h2⟩
        intro x hx
        rcases List.mem_cons.mp hx with rfl | hx
        · unfold maxLine at hl; omega
        · exact h1 x hx

theorem lastValue_append (fs : List (List Char × List Char)) (f : List Char × List Char)
    (key : String) : lastValue (fs ++ [f]) key
      = if f.1 = key.toList then some f.2 else lastValue fs key := by
  unfold lastValue
  rw [List.filter_append, List.map_append]
  by_cases h : f.1 = key.toList <;> simp [h]

/-- The signal a field reports, if any. -/
def sigVal (f : List Char × List Char) : Option (List Char) :=
  if f.1 = "signal".toList then some f.2
  else if f.1 = "signal_number".toList then some ("SIGNAL ".toList ++ f.2) else none

theorem lastSignal_append (fs : List (List Char × List Char)) (f : List Char × List Char) :
    lastSignal (fs ++ [f]) = (sigVal f).or (lastSignal fs) := by
  have h : ∀ g : List Char × List Char → Option (List Char),
      ((fs ++ [f]).filterMap g).getLast? = (g f).or ((fs.filterMap g).getLast?) := by
    intro g
    rw [List.filterMap_append]
    cases hg : g f <;> simp [hg]
  exact h sigVal

theorem toList_ne {a b : String} (h : a ≠ b) : a.toList ≠ b.toList :=
  fun h' => h (String.toList_injective h')

theorem applyField_spec (m : Meta) (k v : List Char) :
    (applyField m k v).exitStatus = (if k = "status".toList then atoi v else m.exitStatus) ∧
    (applyField m k v).memory = (if k = "mem".toList then atoi v else m.memory) ∧
    (applyField m k v).signal = (sigVal (k, v)).or m.signal := by
  have e1 : "time".toList ≠ "status".toList := toList_ne (by decide)
  have e2 : "time-sys".toList ≠ "status".toList := toList_ne (by decide)
  have e3 : "time-wall".toList ≠ "status".toList := toList_ne (by decide)
  have d0 : "status".toList ≠ "mem".toList := toList_ne (by decide)
  have d1 : "time".toList ≠ "mem".toList := toList_ne (by decide)
  have d2 : "time-sys".toList ≠ "mem".toList := toList_ne (by decide)
  have d3 : "time-wall".toList ≠ "mem".toList := toList_ne (by decide)
  have s0 : "status".toList ≠ "signal".toList := toList_ne (by decide)
  have s1 : "time".toList ≠ "signal".toList := toList_ne (by decide)
  have s2 : "time-sys".toList ≠ "signal".toList := toList_ne (by decide)
  have s3 : "time-wall".toList ≠ "signal".toList := toList_ne (by decide)
  have s4 : "mem".toList ≠ "signal".toList := toList_ne (by decide)
  have n0 : "status".toList ≠ "signal_number".toList := toList_ne (by decide)
  have n1 : "time".toList ≠ "signal_number".toList := toList_ne (by decide)
  have n2 : "time-sys".toList ≠ "signal_number".toList := toList_ne (by decide)
  have n3 : "time-wall".toList ≠ "signal_number".toList := toList_ne (by decide)
  have n4 : "mem".toList ≠ "signal_number".toList := toList_ne (by decide)
  unfold applyField sigVal
  generalize "SIGNAL ".toList = S at *
  generalize "SYSCALL ".toList = S' at *
  generalize "status".toList = a0 at *
  generalize "time".toList = a1 at *
  generalize "time-sys".toList = a2 at *
  generalize "time-wall".toList = a3 at *
  generalize "mem".toList = a4 at *
  generalize "signal".toList = a5 at *
  generalize "signal_number".toList = a6 at *
  generalize "syscall".toList = a7 at *
  generalize "syscall_number".toList = a8 at *
  split_ifs <;> simp_all

theorem fold_fields (fs : List (List Char × List Char)) :
    let m := fs.foldl (fun m f => applyField m f.1 f.2) {}
    m.exitStatus = exitOf fs ∧ m.memory = memOf fs ∧ m.signal = lastSignal fs := by
  induction fs using List.reverseRecOn with
  | nil => exact ⟨rfl, rfl, rfl⟩
  | append_singleton fs f ih =>
    obtain ⟨h1, h2, h3⟩ := ih
    simp only [List.foldl_append, List.foldl_cons, List.foldl_nil]
    obtain ⟨a, b, c⟩ := applyField_spec (fs.foldl (fun m f => applyField m f.1 f.2) {}) f.1 f.2
    rw [a, b, c, h1, h2, h3]
    unfold exitOf memOf
    rw [lastValue_append, lastValue_append, lastSignal_append]
    refine ⟨?_, ?_, rfl⟩
    · split <;> rfl
    · split <;> rfl

/-- The table decides uniquely. -/
theorem Decision.unique {limit lang oom allow fields v w}
    (h : Decision limit lang oom allow fields v) (h' : Decision limit lang oom allow fields w) :
    v = w := by
  cases h <;> cases h' <;> first
    | rfl
    | (rename_i s _ _ hs s' _ _ hs'; rw [hs] at hs'; cases hs'; rfl)
    | (exfalso; simp_all; done)
    | (exfalso; rename_i _ hl hp hh hm _ _; exact hm _ hl hp hh)
    | (exfalso; rename_i hm _ _ _ hl hp hh; exact hm _ hl hp hh)
    | (exfalso; rename_i hm _ _ _ _ hl hp hh; exact hm _ hl hp hh)
    | (exfalso; tauto)

theorem parse_decision (limit : Option Int) (lang : String) (file : List Char) (oom allow : Bool)
    (fields) (h : HasFields file fields) :
    (parseMetaFile limit lang file oom allow).2 = false ∧
    Decision limit lang oom allow fields (parseMetaFile limit lang file oom allow).1.verdict := by
  obtain ⟨ls, hl, hlen, hf⟩ := h
  have hs := scan_fields {} ls fields hlen hf
  obtain ⟨he, hm, hg⟩ := fold_fields fields
  generalize fields.foldl (fun m f => applyField m f.1 f.2) {} = m at *
  unfold parseMetaFile
  rw [splitLines_of_hasLines hl, hs]
  simp only [Bool.false_eq_true, if_false]
  have key : ∀ hmm : (∀ lim, limit = some lim → 0 < lim →
        ¬ (lim < memOf fields ∨ lang = "java" ∧ exitOf fields ≠ 0 ∧ oom = true)),
      Decision limit lang oom allow fields
        (if (lang = "kj" ∨ lang = "kp") ∧ m.exitStatus = 1 then Verdict.TLE else
          match m.signal with
          | some s => signalVerdict s
          | none => if m.exitStatus = 0 ∨ allow then .OK else .RTE) := by
    intro hmm
    split
    · rename_i h; exact .karel hmm h.1 (he ▸ h.2)
    · rename_i h
      rw [he] at h
      split
      · rename_i s hs; exact .signal s hmm h (hg ▸ hs)
      · rename_i hs
        split
        · rename_i h'; exact .ok hmm h (hg ▸ hs) (he ▸ h')
        · rename_i h'; exact .rte hmm h (hg ▸ hs) (he ▸ h')
  cases limit with
  | none => exact ⟨rfl, key (by simp)⟩
  | some lim =>
    simp only
    split
    · rename_i h
      refine ⟨rfl, .mle lim rfl h.1 ?_⟩
      rw [he, hm] at h
      exact h.2
    · rename_i h
      refine ⟨rfl, key ?_⟩
      rintro _ ⟨rfl⟩ hp hh
      rw [he, hm] at h
      exact h ⟨hp, hh⟩

/-! ### C09 -/

/-- **C09** A meta file all of whose lines read `key:value` is parsed without error and gets the
verdict of the decision table, which only depends on the last exit status, memory and signal
reported; any other file gives verdict JE and an error. -/
theorem C09_decision_table (limit : Option Int) (lang : String) (file : List Char)
    (oom allow : Bool) :
    (∃ fields, HasFields file fields ∧ (parseMetaFile limit lang file oom allow).2 = false ∧
      ∀ v, Decision limit lang oom allow fields v ↔
        (parseMetaFile limit lang file oom allow).1.verdict = v) ∨
    ((¬ ∃ fields, HasFields file fields) ∧ (parseMetaFile limit lang file oom allow).2 = true ∧
      (parseMetaFile limit lang file oom allow).1.verdict = .JE) := by
  by_cases h : ∃ fields, HasFields file fields
  · left
    obtain ⟨fields, hf⟩ := h
    obtain ⟨h1, h2⟩ := parse_decision limit lang file oom allow fields hf
    exact ⟨fields, hf, h1, fun v => ⟨fun h => h2.unique h, fun h => h ▸ h2⟩⟩
  · right
    refine ⟨h, ?_⟩
    have hl := hasLines_splitLines [] file (by simp)
    simp only [List.reverse_nil, List.nil_append] at hl
    have hv : ∀ m ls, (scan m ls).1.verdict = m.verdict := by
      intro m ls
      induction ls generalizing m with
      | nil => rfl
      | cons l ls ih =>
        rw [scan]
        split
        · rfl
        · split
          · rfl
          · rw [ih]; unfold applyField; split_ifs <;> rfl
    rcases hs : scan {} (splitLines [] file) with ⟨m, b⟩
    cases b with
    | false =>
      obtain ⟨fs, h1, h2⟩ := scan_ok _ _ _ hs
      exact absurd ⟨fs, _, hl, h1, h2⟩ h
    | true =>
      have := hv {} (splitLines [] file)
      rw [hs] at this
      unfold parseMetaFile
      rw [hs]
      exact ⟨rfl, this⟩

/-- **C09** The verdict is always one the sandbox may report (in particular it is in the verdict
list, and never CE, WA, PA or AC). -/
theorem C09_known_verdict (limit : Option Int) (lang : String) (file : List Char)
    (oom allow : Bool) :
    (parseMetaFile limit lang file oom allow).1.verdict ∈
      [Verdict.JE, .MLE, .RFE, .RTE, .TLE, .OLE, .OK] ∧
    (parseMetaFile limit lang file oom allow).1.verdict.name ∈ verdictList := by
  refine ⟨?_, by cases (parseMetaFile limit lang file oom allow).1.verdict <;> decide⟩
  rcases C09_decision_table limit lang file oom allow with ⟨fs, -, -, h⟩ | ⟨-, -, h⟩
  · have := (h _).mpr rfl
    generalize (parseMetaFile limit lang file oom allow).1.verdict = v at *
    cases this with
    | signal s => unfold signalVerdict; split_ifs <;> simp
    | _ => simp
  · rw [h]; simp

/-- **C09** OK exactly when: no signal, exit status zero (or exempt language), no Karel
instruction limit, and memory within a positive limit (and no Java out-of-memory report). -/
theorem C09_ok_iff (limit : Option Int) (lang : String) (file : List Char) (oom allow : Bool)
    (fields) (hf : HasFields file fields) :
    (parseMetaFile limit lang file oom allow).1.verdict = .OK ↔
      lastSignal fields = none ∧ (exitOf fields = 0 ∨ allow = true) ∧
      ¬ ((lang = "kj" ∨ lang = "kp") ∧ exitOf fields = 1) ∧
      (∀ lim, limit = some lim → 0 < lim →
        memOf fields ≤ lim ∧ ¬ (lang = "java" ∧ exitOf fields ≠ 0 ∧ oom = true)) := by
  have hd := (parse_decision limit lang file oom allow fields hf).2
  constructor
  · intro h
    rw [h] at hd
    generalize hv : Verdict.OK = v at hd
    cases hd with
    | ok hm hk hs he =>
      refine ⟨hs, he, hk, fun lim h1 h2 => ?_⟩
      have := hm lim h1 h2
      rw [not_or] at this
      exact ⟨by omega, this.2⟩
    | signal s => exfalso; revert hv; unfold signalVerdict; split_ifs <;> simp
    | _ => cases hv
  · rintro ⟨h1, h2, h3, h4⟩
    refine hd.unique (.ok (fun lim h5 h6 => ?_) h3 h1 h2)
    obtain ⟨h7, h8⟩ := h4 lim h5 h6
    rintro (h | h)
    · omega
    · exact h8 h

/-- **C09** The signal table, spelled out. -/
theorem C09_signal_table (s : String) :
    signalVerdict s.toList =
      if s = "SIGSYS" then .RFE
      else if s = "SIGALRM" ∨ s = "SIGXCPU" then .TLE
      else if s = "SIGXFSZ" then .OLE
      else .RTE := by
  have e : ∀ t : String, s.toList = t.toList ↔ s = t :=
    fun t => ⟨fun h => String.toList_injective h, fun h => by rw [h]⟩
  unfold signalVerdict
  simp only [List.mem_cons, List.not_mem_nil, or_false, e]
  split_ifs with h1 h2 h3 h4 <;> first | rfl | (rcases h2 with rfl | rfl | rfl | rfl | rfl | rfl | rfl <;> simp_all)

/-- **C09** Numbers in the file are read as decimal numbers: `ds` are the digits, most significant
first. -/
theorem C09_decimal (ds : List Nat) (hd : ∀ d ∈ ds, d < 10) (hne : ds ≠ [])
    (hsmall : ds.foldl (fun n d => 10 * n + d) 0 < 2 ^ 63) :
    atoi (ds.map fun d => Char.ofNat (48 + d)) = (ds.foldl (fun n d => 10 * n + d) 0 : Nat) ∧
    atoi ('-' :: ds.map fun d => Char.ofNat (48 + d)) = -(ds.foldl (fun n d => 10 * n + d) 0 : Nat) := by
  have hchar : ∀ d < 10, ('0' ≤ Char.ofNat (48 + d) ∧ Char.ofNat (48 + d) ≤ '9') ∧
      (Char.ofNat (48 + d)).toNat - 48 = d ∧ Char.ofNat (48 + d) ≠ '-' ∧ Char.ofNat (48 + d) ≠ '+' := by
    decide
  have hfold : ∀ (ds : List Nat), (∀ d ∈ ds, d < 10) → ∀ n,
      (ds.map fun d => Char.ofNat (48 + d)).foldl (fun acc c => acc.bind fun n =>
        if '0' ≤ c ∧ c ≤ '9' then some (n * 10 + (c.toNat - 48)) else none) (some n)
      = some (ds.foldl (fun n d => 10 * n + d) n) := by
    intro ds
    induction ds with
    | nil => intro _ n; rfl
    | cons d ds ih =>
      intro h n
      obtain ⟨h1, h2, -⟩ := hchar d (h d (by simp))
      simp only [List.map_cons, List.foldl_cons, Option.bind_some]
      rw [if_pos h1, h2, ih (fun x hx => h x (by simp [hx])), Nat.mul_comm n 10]
  have hdig : digits (ds.map fun d => Char.ofNat (48 + d))
      = some (ds.foldl (fun n d => 10 * n + d) 0) := by
    match ds, hne with
    | d :: ds, _ =>
      have := hfold (d :: ds) hd 0
      rw [← this]
      rfl
  have hpos : ∀ (c : Char) (r : List Char) (n : Nat), c ≠ '-' → c ≠ '+' → digits (c :: r) = some n →
      atoi (c :: r) = min (n : Int) (2 ^ 63 - 1) := by
    intro c r n h3 h4 h
    have : stripSign (c :: r) = (false, c :: r) := by
      unfold stripSign
      split
      · rename_i r hr; exact absurd (List.cons.inj hr).1 h3
      · rename_i r hr; exact absurd (List.cons.inj hr).1 h4
      · rfl
    unfold atoi
    rw [this]
    simp only [h, Bool.false_eq_true, if_false]
  constructor
  · match ds, hne with
    | d :: ds, _ =>
      obtain ⟨-, -, h3, h4⟩ := hchar d (hd d (by simp))
      rw [List.map_cons, hpos _ _ _ h3 h4 hdig]
      omega
  · unfold atoi stripSign
    simp only
    rw [hdig]
    simp only [if_true]
    omega

example : atoi "-1207".toList = -1207 ∧ atoi "12a".toList = 0 := by decide

/-- A finding beside C09: a status that is not a number counts as 0, hence as success. -/
theorem C09_garbage_status_is_success :
    (parseMetaFile (some 1000) "cpp" "status:oops\nmem:10".toList false false).1.verdict = .OK := by
  decide

-- a signalled process over the limit; a signalled process; a Karel program
example :
    (parseMetaFile (some 1000) "cpp" "status:0\nsignal:SIGSEGV\nmem:1001\n".toList false false)
      = ({ verdict := .MLE, exitStatus := 0, memory := 1000, signal := some "SIGSEGV".toList },
          false) ∧
    (parseMetaFile none "cpp" "signal:SIGXFSZ\r\nstatus:0".toList false false).1.verdict = .OLE ∧
    (parseMetaFile none "kp" "status:1".toList false true).1.verdict = .TLE ∧
    (parseMetaFile none "cpp" "status:0\nnonsense".toList false true).2 = true := by
  decide

example : HasFields "a:b\nstatus:0\r\n".toList
    [("a".toList, "b".toList), ("status".toList, "0".toList)] := by
  refine ⟨["a:b".toList, "status:0\r".toList], ?_, by decide, ?_⟩
  · exact .line "a:b".toList "status:0\r\n".toList _ (by decide)
      (.line "status:0\r".toList [] _ (by decide) .nil)
  · exact .cons ⟨by decide, .inl ⟨by decide, by decide⟩⟩
      (.cons ⟨by decide, .inr (by decide)⟩ .nil)

/-! ### C10 -/

/-- **C10** Under a positive memory limit, a successfully parsed file never reports more memory than
the limit; if the file itself records more, the verdict is MLE and the reported memory the limit. -/
theorem C10_memory (lim : Int) (hp : 0 < lim) (lang : String) (file : List Char) (oom allow : Bool)
    (fields) (hf : HasFields file fields) :
    let r := (parseMetaFile (some lim) lang file oom allow).1
    r.memory ≤ lim ∧ (memOf fields ≤ lim → lang ≠ "java" → r.memory = memOf fields) ∧
      (lim < memOf fields → r.verdict = .MLE ∧ r.memory = lim) := by
  obtain ⟨ls, hl, hlen, hff⟩ := hf
  have hs := scan_fields {} ls fields hlen hff
  obtain ⟨he, hm, hg⟩ := fold_fields fields
  generalize fields.foldl (fun m f => applyField m f.1 f.2) {} = m at *
  unfold parseMetaFile
  rw [splitLines_of_hasLines hl, hs]
  simp only [Bool.false_eq_true, if_false]
  rw [← hm]
  split
  · rename_i h
    refine ⟨by simp, ?_, fun _ => ⟨rfl, rfl⟩⟩
    intro h1 h2
    rcases h.2 with h' | h'
    · omega
    · exact absurd h'.1 h2
  · rename_i h
    have hle : m.memory ≤ lim := by
      by_contra hc
      exact h ⟨hp, Or.inl (by omega)⟩
    exact ⟨hle, fun _ _ => rfl, fun h' => by omega⟩

/-! ### C11 -/

/-- Position in the documented worst-to-best order. -/
def Verdict.rank : Verdict → Nat
  | .JE => 0 | .CE => 1 | .MLE => 2 | .RFE => 3 | .RTE => 4 | .TLE => 5 | .OLE => 6 | .WA => 7
  | .PA => 8 | .AC => 9 | .OK => 10

/-- The worse of two verdicts. -/
def worse (a b : Verdict) : Verdict := if a.rank < b.rank then a else b

theorem rank_inj {a b : Verdict} (h : a.rank = b.rank) : a = b := by
  cases a <;> cases b <;> first | rfl | (exact absurd h (by decide))

/-- **C11** On verdicts of the list, `worseVerdict` does not panic and returns the worse one. -/
theorem C11_worse (a b : Verdict) : worseVerdict a.name b.name = some (worse a b).name := by
  cases a <;> cases b <;> decide

/-- On any other string it does panic. -/
theorem C11_panics_outside : worseVerdict "??" "AC" = none := by decide

theorem worse_rank (a b : Verdict) : (worse a b).rank = min a.rank b.rank := by
  unfold worse; split <;> omega

/-- **C11** Commutative, associative, idempotent, with OK as neutral element. -/
theorem C11_semilattice (a b c : Verdict) :
    worse a b = worse b a ∧ worse (worse a b) c = worse a (worse b c) ∧ worse a a = a ∧
      worse .OK a = a := by
  refine ⟨rank_inj ?_, rank_inj ?_, rank_inj ?_, rank_inj ?_⟩
  · simp only [worse_rank]; omega
  · simp only [worse_rank]; omega
  · simp only [worse_rank]; omega
  · simp only [worse_rank]; cases a <;> decide

/-- The accumulation `result.Verdict = worseVerdict(result.Verdict, v)` over a list, starting from
OK (runner/runner.go:797, 1041). `none` = panic. -/
def accumulate (vs : List String) : Option String :=
  vs.foldlM (fun acc v => worseVerdict acc v) "OK"

/-- **C11** Accumulating known verdicts never panics, and the result is the worst of them: it is one
of them (or OK for none) and none is worse; so it does not depend on their order. -/
theorem C11_accumulate (vs : List Verdict) :
    ∃ v, accumulate (vs.map Verdict.name) = some v.name ∧ (v ∈ vs ∨ v = .OK) ∧
      ∀ w ∈ vs, v.rank ≤ w.rank := by
  have : ∀ (vs : List Verdict) (a : Verdict), ∃ v,
      (vs.map Verdict.name).foldlM (fun acc v => worseVerdict acc v) a.name = some v.name ∧
      (v ∈ vs ∨ v = a) ∧ v.rank ≤ a.rank ∧ ∀ w ∈ vs, v.rank ≤ w.rank := by
    intro vs
    induction vs with
    | nil => intro a; exact ⟨a, rfl, Or.inr rfl, Nat.le_refl _, by simp⟩
    | cons x vs ih =>
      intro a
      obtain ⟨v, h1, h2, h3, h4⟩ := ih (worse a x)
      rw [worse_rank] at h3
      refine ⟨v, ?_, ?_, by omega, ?_⟩
      · simp only [List.map_cons, List.foldlM_cons, C11_worse]
        exact h1
      · rcases h2 with h2 | h2
        · left; simp [h2]
        · unfold worse at h2
          split at h2
          · right; exact h2
          · left; simp [h2]
      · intro w hw
        rcases List.mem_cons.mp hw with rfl | hw
        · omega
        · exact h4 w hw
  obtain ⟨v, h1, h2, -, h3⟩ := this vs .OK
  exact ⟨v, h1, h2, h3⟩

/-- **C11** Order independence. -/
theorem C11_order_irrelevant (vs ws : List Verdict) (h : vs.Perm ws) :
    accumulate (vs.map Verdict.name) = accumulate (ws.map Verdict.name) := by
  obtain ⟨v, h1, h2, h3⟩ := C11_accumulate vs
  obtain ⟨w, h4, h5, h6⟩ := C11_accumulate ws
  rw [h1, h4]
  have hle : v.rank ≤ w.rank := by
    rcases h5 with h5 | h5
    · exact h3 w (h.mem_iff.mpr h5)
    · rw [h5]; cases v <;> decide
  have hge : w.rank ≤ v.rank := by
    rcases h2 with h2 | h2
    · exact h6 v (h.mem_iff.mp h2)
    · rw [h2]; cases w <;> decide
  rw [rank_inj (Nat.le_antisymm hle hge)]

example : accumulate ["AC", "TLE", "OK", "MLE"] = some "MLE" := by decide

end Quark.MetaFile
