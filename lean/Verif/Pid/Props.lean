import Verif.Pid.Spec
import Mathlib.Data.List.Induction

namespace Quark.Pid
open Quark.Pid.Spec

/-! ## The hash -/

theorem mix_toNat (h : UInt32) (c : UInt8) :
    (mix h c).toNat = (h.toNat ^^^ c.toNat) * 16777619 % 4294967296 := by
  simp [mix, UInt32.toNat_mul, UInt32.toNat_xor]

theorem foldl_spec (b : Bytes) (h : UInt32) : (b.foldl mix h).toNat = fnv h.toNat (b.map UInt8.toNat) := by
  induction b generalizing h with
  | nil => rfl
  | cons c cs ih => rw [List.foldl_cons, ih, mix_toNat]; rfl

theorem fnv32a_spec (b : Bytes) : (fnv32a b).toNat = number b := foldl_spec b _

/-- The test vectors of the publication: the empty string, "a" and "foobar". -/
example : number [] = 0x811c9dc5 ∧ number [97] = 0xe40c292c ∧ number [102, 111, 111, 98, 97, 114] = 0xbf9cf968 := by
  decide +kernel

theorem mul_inj {a b : UInt32} (h : a * 16777619 = b * 16777619) : a = b := by
  have e : (16777619 : UInt32) * 899433627 = 1 := by decide
  have := congrArg (· * (899433627 : UInt32)) h
  simpa [UInt32.mul_assoc, e] using this

theorem mix_inj_left {h h' : UInt32} {c : UInt8} (e : mix h c = mix h' c) : h = h' := by
  have := mul_inj e
  have := congrArg (· ^^^ c.toUInt32) this
  simpa [UInt32.xor_assoc] using this

theorem mix_inj_right {h : UInt32} {c c' : UInt8} (e : mix h c = mix h c') : c = c' := by
  have h1 := mul_inj e
  have h2 := congrArg (h ^^^ ·) h1
  simp only [← UInt32.xor_assoc, UInt32.xor_self, UInt32.zero_xor] at h2
  have h3 := congrArg UInt32.toNat h2
  exact UInt8.toNat_inj.mp (by simpa using h3)

theorem foldl_inj (b : Bytes) {h h' : UInt32} (e : b.foldl mix h = b.foldl mix h') : h = h' := by
  induction b generalizing h h' with
  | nil => exact e
  | cons c cs ih => exact mix_inj_left (ih e)

theorem number_inj {a b : Bytes} : number a = number b ↔ fnv32a a = fnv32a b := by
  rw [← fnv32a_spec, ← fnv32a_spec, UInt32.toNat_inj]

/-- What follows does not matter: two names with the same ending have the same number exactly if what is before it has. -/
theorem number_append (a b tail : Bytes) : number (a ++ tail) = number (b ++ tail) ↔ number a = number b := by
  rw [number_inj, number_inj]
  unfold fnv32a
  rw [List.foldl_append, List.foldl_append]
  exact ⟨foldl_inj tail, fun e => by rw [e]⟩

def parity (b : Bytes) : Nat := (b.map UInt8.toNat).sum % 2

theorem fnv_mod_two (b : List Nat) (h : Nat) : fnv h b % 2 = (h + b.sum) % 2 := by
  induction b generalizing h with
  | nil => simp [fnv]
  | cons c cs ih =>
    rw [fnv, ih, List.sum_cons]
    have e : (h ^^^ c) % 2 = (h + c) % 2 := by
      have h1 := Nat.xor_mod_two_pow (a := h) (b := c) (n := 1)
      rw [Nat.pow_one] at h1
      rw [h1]
      have a2 := Nat.mod_two_eq_zero_or_one h
      have b2 := Nat.mod_two_eq_zero_or_one c
      rcases a2 with a2 | a2 <;> rcases b2 with b2 | b2 <;> simp [a2, b2, Nat.add_mod]
    omega

theorem number_mod_two (b : Bytes) : number b % 2 = (1 + parity b) % 2 := by
  unfold number parity
  rw [fnv_mod_two]; omega

/-! ## The names -/

theorem ascii_main : ascii ['m', 'a', 'i', 'n'] = [109, 97, 105, 110] := by decide

/-- C178: what the numbers of a process are: those of "host (role)" and of "main". -/
theorem C178_numbers (host role : Bytes) :
    (contextFactory (some host) role).processName = title host role ∧
    (contextFactory (some host) role).threadName = [109, 97, 105, 110] ∧
    (contextFactory (some host) role).pid = number (title host role) ∧
    (contextFactory (some host) role).tid = number [109, 97, 105, 110] := by
  have hs : ascii [' ', '('] = [32, 40] := by decide
  have he : ascii [')'] = [41] := by decide
  refine ⟨?_, ascii_main, ?_, ?_⟩
  · simp only [contextFactory, newEventFactory, hostnameOr, Option.getD_some, hs, he, title]
  · simp only [contextFactory, newEventFactory, hostnameOr, Option.getD_some, hs, he, title, fnv32a_spec]
  · simp only [contextFactory, newEventFactory, fnv32a_spec, ascii_main]

theorem graderRole_eq : graderRole = [103, 114, 97, 100, 101, 114] := by decide
theorem runnerRole_eq : runnerRole = [114, 117, 110, 110, 101, 114] := by decide
theorem benchmarkRole_eq : benchmarkRole = [98, 101, 110, 99, 104, 109, 97, 114, 107] := by decide

theorem sum_title (host role : Bytes) :
    ((title host role).map UInt8.toNat).sum =
      (host.map UInt8.toNat).sum + 72 + (role.map UInt8.toNat).sum + 41 := by
  simp [title]; omega

theorem differ_of_parity (h : Option Bytes) (r r' : Bytes)
    (hp : (r.map UInt8.toNat).sum % 2 ≠ (r'.map UInt8.toNat).sum % 2) :
    (contextFactory h r).pid ≠ (contextFactory h r').pid := by
  intro e
  have key : ∀ host : Bytes, (contextFactory (some host) r).pid ≠ (contextFactory (some host) r').pid := by
    intro host e
    rw [(C178_numbers host r).2.2.1, (C178_numbers host r').2.2.1] at e
    have h1 := number_mod_two (title host r)
    have h2 := number_mod_two (title host r')
    rw [e] at h1
    have h3 : parity (title host r) % 2 = parity (title host r') % 2 := by omega
    unfold parity at h3
    rw [sum_title, sum_title] at h3
    omega
  exact key (hostnameOr h) (by simpa [contextFactory, hostnameOr] using e)

/-- C178: a grader and a runner of the same host never share their number, whatever the host is called, and neither do a
runner and the benchmark. -/
theorem C178_roles (hostname : Option Bytes) :
    (contextFactory hostname graderRole).pid ≠ (contextFactory hostname runnerRole).pid ∧
    (contextFactory hostname runnerRole).pid ≠ (contextFactory hostname benchmarkRole).pid := by
  constructor
  · apply differ_of_parity; rw [graderRole_eq, runnerRole_eq]; decide
  · apply differ_of_parity; rw [runnerRole_eq, benchmarkRole_eq]; decide

/-- C178, part: two processes of the same role share their number exactly if the names of their hosts have the same number.
What is missing is that this does not happen, see `C178_false`. -/
theorem C178_hosts_partial (host host' role : Bytes) :
    (contextFactory (some host) role).pid = (contextFactory (some host') role).pid ↔ number host = number host' := by
  rw [(C178_numbers host role).2.2.1, (C178_numbers host' role).2.2.1]
  unfold title
  rw [List.append_assoc, List.append_assoc, List.append_assoc, List.append_assoc]
  exact number_append host host' _

/-- C178, part: hosts whose names differ in one byte (runner1 and runner2) never share their number. -/
theorem C178_one_byte_partial (before after role : Bytes) (c c' : UInt8) (hne : c ≠ c') :
    (contextFactory (some (before ++ c :: after)) role).pid ≠ (contextFactory (some (before ++ c' :: after)) role).pid := by
  rw [ne_eq, C178_hosts_partial, number_inj]
  unfold fnv32a
  rw [List.foldl_append, List.foldl_append, List.foldl_cons, List.foldl_cons]
  intro e
  exact hne (mix_inj_right (foldl_inj after e))

/-- runner1 and runner2 -/
example : (contextFactory (some [114, 117, 110, 110, 101, 114, 49]) runnerRole).pid ≠
    (contextFactory (some [114, 117, 110, 110, 101, 114, 50]) runnerRole).pid :=
  C178_one_byte_partial [114, 117, 110, 110, 101, 114] [] runnerRole 49 50 (by decide)

/-- C178 is false: processes on different hosts can share their number. The hosts are called 3a54cd and 26a12f, as
containers are, and this is so whatever the role is. -/
theorem C178_false :
    ∃ host host' : Bytes, host ≠ host' ∧ ∀ role,
      title host role ≠ title host' role ∧
      (contextFactory (some host) role).pid = (contextFactory (some host') role).pid := by
  refine ⟨[51, 97, 53, 52, 99, 100], [50, 54, 97, 49, 50, 102], by decide, fun role => ⟨?_, ?_⟩⟩
  · simp [title]
  · rw [C178_hosts_partial]; decide +kernel

/-- Nor can hosts that do not know their names be told apart, from each other or from one called main. -/
theorem C178_no_hostname (role : Bytes) :
    contextFactory none role = contextFactory (some [109, 97, 105, 110]) role := by
  simp only [contextFactory, hostnameOr, Option.getD_none, Option.getD_some, ascii_main]

/-- All the processes have the same single thread: whatever the roles and hosts, the numbers of the threads are equal. -/
theorem C178_one_thread (h h' : Option Bytes) (r r' : Bytes) : (contextFactory h r).tid = (contextFactory h' r').tid :=
  rfl

/-! ## The trace of a run -/

/-- Before every event that is not one of these itself, the trace gives the name of its process and the name of its thread,
and they are the names that its numbers are made of. -/
def AllTold (events : List Event) : Prop :=
  ∀ (i : Nat) (e : Event), events[i]? = some e → e.metadata = false →
    ∃ name thread, number name = e.pid ∧ number thread = e.tid ∧
      ToldBefore events i "process_name".toList name ∧ ToldBefore events i "thread_name".toList thread

theorem told_append_left {t : List Event} {i : Nat} {key : List Char} {l : Bytes} (h : ToldBefore t i key l)
    (more : List Event) : ToldBefore (t ++ more) i key l := by
  obtain ⟨j, e, e', hj, hi, hjj, rest⟩ := h
  obtain ⟨h1, _⟩ := List.getElem?_eq_some_iff.mp hi
  obtain ⟨h2, _⟩ := List.getElem?_eq_some_iff.mp hjj
  exact ⟨j, e, e', hj, by rw [List.getElem?_append_left h1]; exact hi,
    by rw [List.getElem?_append_left h2]; exact hjj, rest⟩

theorem told_append_right {t : List Event} {i : Nat} {key : List Char} {l : Bytes} (h : ToldBefore t i key l)
    (before : List Event) : ToldBefore (before ++ t) (before.length + i) key l := by
  obtain ⟨j, e, e', hj, hi, hjj, rest⟩ := h
  refine ⟨before.length + j, e, e', by omega, ?_, ?_, rest⟩
  · rw [List.getElem?_append_right (by omega), Nat.add_sub_cancel_left]; exact hi
  · rw [List.getElem?_append_right (by omega), Nat.add_sub_cancel_left]; exact hjj

theorem allTold_append {a b : List Event} (ha : AllTold a) (hb : AllTold b) : AllTold (a ++ b) := by
  intro i e hi hm
  by_cases hl : i < a.length
  · rw [List.getElem?_append_left hl] at hi
    obtain ⟨n, t, h1, h2, h3, h4⟩ := ha i e hi hm
    exact ⟨n, t, h1, h2, told_append_left h3 b, told_append_left h4 b⟩
  · rw [List.getElem?_append_right (by omega)] at hi
    obtain ⟨n, t, h1, h2, h3, h4⟩ := hb _ e hi hm
    have e1 : i = a.length + (i - a.length) := by omega
    rw [e1]
    exact ⟨n, t, h1, h2, told_append_right h3 a, told_append_right h4 a⟩

theorem told_take {t : List Event} {i n : Nat} {key : List Char} {l : Bytes} (h : ToldBefore t i key l) (hn : i < n) :
    ToldBefore (t.take n) i key l := by
  obtain ⟨j, e, e', hj, hi, hjj, rest⟩ := h
  exact ⟨j, e, e', hj, by rw [List.getElem?_take_of_lt hn]; exact hi,
    by rw [List.getElem?_take_of_lt (by omega)]; exact hjj, rest⟩

theorem allTold_take {a : List Event} (ha : AllTold a) (n : Nat) : AllTold (a.take n) := by
  intro i e hi hm
  by_cases hl : i < n
  · rw [List.getElem?_take_of_lt hl] at hi
    obtain ⟨nm, t, h1, h2, h3, h4⟩ := ha i e hi hm
    exact ⟨nm, t, h1, h2, told_take h3 hl, told_take h4 hl⟩
  · rw [List.getElem?_eq_none (by rw [List.length_take]; omega)] at hi
    exact absurd hi (by simp)

/-- A trace that begins with the two names of a factory, and has nothing but its events after them and whole or cut traces. -/
theorem told_own {f : Factory} (hp : number f.processName = f.pid) (ht : number f.threadName = f.tid)
    (more : List Event) (i : Nat) (name : Bytes) (hi : (debugContext f ++ more)[i]? = some (f.newEvent name)) :
    ∃ nm th, number nm = (f.newEvent name).pid ∧ number th = (f.newEvent name).tid ∧
      ToldBefore (debugContext f ++ more) i "process_name".toList nm ∧
      ToldBefore (debugContext f ++ more) i "thread_name".toList th := by
  have h2 : 2 ≤ i := by
    rcases i with _ | _ | i
    · have := congrArg (fun o => o.map Event.metadata) hi
      simp [debugContext, Factory.register, Factory.newEvent] at this
    · have := congrArg (fun o => o.map Event.metadata) hi
      simp [debugContext, Factory.register, Factory.newEvent] at this
    · omega
  refine ⟨f.processName, f.threadName, hp, ht, ?_, ?_⟩
  · exact ⟨0, _, _, by omega, hi, rfl, rfl, (by decide +kernel : processNameKey = _), rfl, rfl, rfl⟩
  · exact ⟨1, _, _, by omega, hi, rfl, rfl, (by decide +kernel : threadNameKey = _), rfl, rfl, rfl⟩

theorem factory_numbers (h : Option Bytes) (r : Bytes) :
    number (contextFactory h r).processName = (contextFactory h r).pid ∧
    number (contextFactory h r).threadName = (contextFactory h r).tid :=
  ⟨(fnv32a_spec _).symm, (fnv32a_spec _).symm⟩

/-- C178: a runner's trace tells of every event whose it is, before the event. -/
theorem C178_runner_told (host : Option Bytes) (role : Bytes) (names : List Bytes) :
    AllTold (runnerTrace (contextFactory host role) names) := by
  intro i e hi hm
  have hx := hi
  unfold runnerTrace at hi
  by_cases hl : i < (debugContext (contextFactory host role)).length
  · rw [List.getElem?_append_left hl] at hi
    have : e ∈ debugContext (contextFactory host role) := List.mem_of_getElem? hi
    simp [debugContext, Factory.register] at this
    rcases this with rfl | rfl <;> simp at hm
  · rw [List.getElem?_append_right (by omega)] at hi
    obtain ⟨nm, -, rfl⟩ := List.mem_map.mp (List.mem_of_getElem? hi)
    exact told_own (factory_numbers host role).1 (factory_numbers host role).2 _ i nm hx

/-- The traces that are uploaded are traces of runners, whole or cut off. -/
def FromRunners (acts : List Act) : Prop :=
  ∀ t n, Act.merge t n ∈ acts → ∃ host role names, t = runnerTrace (contextFactory host role) names

theorem graderTrace_prefix (f : Factory) (acts : List Act) : ∃ more, graderTrace f acts = debugContext f ++ more := by
  unfold graderTrace
  induction acts using List.reverseRecOn with
  | nil => exact ⟨[], by simp⟩
  | append_singleton l a ih =>
    obtain ⟨m, hm⟩ := ih
    rw [List.foldl_append, List.foldl_cons, List.foldl_nil, hm]
    cases a with
    | own n => exact ⟨m ++ [f.newEvent n], by simp [step]⟩
    | merge t n => exact ⟨m ++ t.take n, by simp [step]⟩

/-- C178: so does the trace of a run in the grader, whatever traces were uploaded for it, in any order and cut off anywhere. -/
theorem C178_grader_told (host : Option Bytes) (role : Bytes) (acts : List Act) (hr : FromRunners acts) :
    AllTold (graderTrace (contextFactory host role) acts) := by
  induction acts using List.reverseRecOn with
  | nil =>
    have := C178_runner_told host role []
    simpa [runnerTrace, graderTrace] using this
  | append_singleton l a ih =>
    have ihl := ih fun t n hm => hr t n (List.mem_append_left _ hm)
    have e : graderTrace (contextFactory host role) (l ++ [a]) =
        step (contextFactory host role) (graderTrace (contextFactory host role) l) a := by
      unfold graderTrace; rw [List.foldl_append]; rfl
    rw [e]
    cases a with
    | merge t n =>
      obtain ⟨h', r', names, rfl⟩ := hr t n (by simp)
      exact allTold_append ihl (allTold_take (C178_runner_told h' r' names) n)
    | own nm =>
      intro i e hi hm
      obtain ⟨more, hmore⟩ := graderTrace_prefix (contextFactory host role) l
      change (graderTrace (contextFactory host role) l ++ [(contextFactory host role).newEvent nm])[i]? = some e at hi
      change ∃ name thread, number name = e.pid ∧ number thread = e.tid ∧
        ToldBefore (graderTrace (contextFactory host role) l ++ [(contextFactory host role).newEvent nm]) i _ name ∧
        ToldBefore (graderTrace (contextFactory host role) l ++ [(contextFactory host role).newEvent nm]) i _ thread
      by_cases hl : i < (graderTrace (contextFactory host role) l).length
      · rw [List.getElem?_append_left hl] at hi
        obtain ⟨n, t, h1, h2, h3, h4⟩ := ihl i e hi hm
        exact ⟨n, t, h1, h2, told_append_left h3 _, told_append_left h4 _⟩
      · have hx := hi
        rw [List.getElem?_append_right (by omega)] at hi
        have : e = (contextFactory host role).newEvent nm := by
          have := List.mem_of_getElem? hi
          simpa using this
        subst this
        rw [hmore, List.append_assoc] at hx ⊢
        exact told_own (factory_numbers host role).1 (factory_numbers host role).2 _ i nm hx

/-- An attempt of run 1 that was given to runner1, whose trace was cut off after its third event. -/
example : ∃ acts, FromRunners acts ∧
    (graderTrace (contextFactory (some [103]) graderRole) acts).length = 6 ∧
    AllTold (graderTrace (contextFactory (some [103]) graderRole) acts) := by
  refine ⟨[.own [99], .merge (runnerTrace (contextFactory (some [114, 49]) runnerRole) [[98], [101]]) 3], ?_, ?_, ?_⟩
  · intro t n hm
    simp only [List.mem_cons, Act.merge.injEq, reduceCtorEq, List.not_mem_nil, or_false, false_or] at hm
    exact ⟨_, _, _, hm.1⟩
  · decide +kernel
  · apply C178_grader_told
    intro t n hm
    simp only [List.mem_cons, Act.merge.injEq, reduceCtorEq, List.not_mem_nil, or_false, false_or] at hm
    exact ⟨_, _, _, hm.1⟩

/-- C178: in the trace of a run that a runner of the same host graded, the two are told apart: no event of the grader has
the number of an event of the runner. -/
theorem C178_same_host (host : Option Bytes) (names names' : List Bytes) :
    ∀ e ∈ runnerTrace (contextFactory host graderRole) names, ∀ e' ∈ runnerTrace (contextFactory host runnerRole) names',
      e.pid ≠ e'.pid := by
  have key : ∀ (r : Bytes) (ns : List Bytes), ∀ e ∈ runnerTrace (contextFactory host r) ns, e.pid = (contextFactory host r).pid := by
    intro r ns e he
    simp [runnerTrace, debugContext, Factory.register, Factory.newEvent] at he
    rcases he with rfl | rfl | ⟨_, _, rfl⟩ <;> rfl
  intro e he e' he'
  rw [key _ _ e he, key _ _ e' he']
  exact (C178_roles host).1

end Quark.Pid
