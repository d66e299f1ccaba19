import Verif.Phases.Props
import Verif.Tracing.Props

/-!
# C175: the grader reads the phases that the runner wrote
-/
namespace Quark.Phases
open Quark.Tracing (Event Factory GoVal encode decode decodeAll)

/-- How the events are made (runner/runner.go:737-1244, cmd/omegaup-runner/main.go:482, 599-632, common/tracing.go:379-397): at any time, with
any arguments. -/
def MadeAs : Ev → Event → Prop
  | .B n, e => ∃ (f : Factory) (now : Int) (args : List (String × GoVal)), e = f.newEvent now n "B" args
  | .E n, e => ∃ (f : Factory) (now : Int) (args : List (String × GoVal)), e = f.newEvent now n "E" args
  | .M n, e => ∃ (f : Factory) (now : Int) (args : List (String × GoVal)), e = f.newEvent now n "M" args
  | .X n, e => ∃ (f : Factory) (now : Int) (args : List (String × GoVal)), e = f.newComplete now n args
  | .c n, e => ∃ (f : Factory) (now : Int) (id : Nat), n = "clock_sync" ∧ e = f.newReceiver now id

/-- What an event of a trace says. -/
def phaseOf (e : Event) : Option Ev :=
  if e.type = "B" then some (.B e.name)
  else if e.type = "E" then some (.E e.name)
  else if e.type = "M" then some (.M e.name)
  else if e.type = "X" then some (.X e.name)
  else if e.type = "c" then some (.c e.name)
  else none

theorem arrives_one (shortest : ℚ → ℚ) (ev : Ev) (e : Event) (now : Int) (h : MadeAs ev e) :
    ∃ d, decode (encode shortest (e.finalize now)) = some d ∧ phaseOf d = some ev := by
  cases ev with
  | B n =>
    obtain ⟨f, m, args, rfl⟩ := h
    exact ⟨_, rfl, rfl⟩
  | E n =>
    obtain ⟨f, m, args, rfl⟩ := h
    exact ⟨_, rfl, rfl⟩
  | M n =>
    obtain ⟨f, m, args, rfl⟩ := h
    exact ⟨_, rfl, rfl⟩
  | X n =>
    obtain ⟨f, m, args, rfl⟩ := h
    exact ⟨_, rfl, rfl⟩
  | c n =>
    obtain ⟨f, m, id, rfl, rfl⟩ := h
    exact ⟨_, rfl, rfl⟩

/-- **C175** The trace of a run, written by the runner and read by the grader, never makes the grader panic, whatever the times and
arguments of its events, and what the grader reads are the same phases in the same order, well nested. -/
theorem C175_arrives (shortest : ℚ → ℚ) (j : Job) (t : List Ev) (h : Traces j t) (es : List (Int × Event))
    (hes : List.Forall₂ (fun ev x => MadeAs ev x.2) t es) :
    ∃ ds, decodeAll (es.map fun x => encode shortest (x.2.finalize x.1)) = some ds ∧ ds.map phaseOf = t.map some ∧ Balanced t := by
  have hb := C175_nested j t h
  clear h
  have : ∃ ds, decodeAll (es.map fun x => encode shortest (x.2.finalize x.1)) = some ds ∧ ds.map phaseOf = t.map some := by
    clear hb
    induction hes with
    | nil => exact ⟨[], rfl, rfl⟩
    | @cons ev x t es h1 _ ih =>
      obtain ⟨d, hd, hs⟩ := arrives_one shortest ev x.2 x.1 h1
      obtain ⟨ds, hds, hds'⟩ := ih
      exact ⟨d :: ds, by simp only [List.map_cons, decodeAll, hd, hds, Option.map_some], by simp [hs, hds']⟩
  obtain ⟨ds, h1, h2⟩ := this
  exact ⟨ds, h1, h2, hb⟩

/-- The sample trace, its events made one after the other. -/
example : ∃ (t : List Ev) (es : List (Int × Event)), Traces sampleJob t ∧ List.Forall₂ (fun ev x => MadeAs ev x.2) t es := by
  have key : ∀ t : List Ev, (∀ n, Ev.c n ∈ t → n = "clock_sync") →
      ∃ es : List (Int × Event), List.Forall₂ (fun ev x => MadeAs ev x.2) t es := by
    intro t
    induction t with
    | nil => exact fun _ => ⟨[], .nil⟩
    | cons ev t ih =>
      intro hc
      obtain ⟨es, hes⟩ := ih (fun n hn => hc n (by simp [hn]))
      cases ev with
      | B n => exact ⟨(5, Factory.newEvent ⟨1, 2⟩ 3 n "B" []) :: es, .cons ⟨_, _, _, rfl⟩ hes⟩
      | E n => exact ⟨(5, Factory.newEvent ⟨1, 2⟩ 3 n "E" []) :: es, .cons ⟨_, _, _, rfl⟩ hes⟩
      | M n => exact ⟨(5, Factory.newEvent ⟨1, 2⟩ 3 n "M" []) :: es, .cons ⟨_, _, _, rfl⟩ hes⟩
      | X n => exact ⟨(5, Factory.newComplete ⟨1, 2⟩ 3 n []) :: es, .cons ⟨_, _, _, rfl⟩ hes⟩
      | c n => exact ⟨(5, Factory.newReceiver ⟨1, 2⟩ 3 77) :: es, .cons ⟨_, _, _, hc n (by simp), rfl⟩ hes⟩
  obtain ⟨t, ht, hc⟩ : ∃ t, Traces sampleJob t ∧ ∀ n, Ev.c n ∈ t → n = "clock_sync" := ⟨_, sample_traces, by simp⟩
  obtain ⟨es, hes⟩ := key t hc
  exact ⟨t, es, ht, hes⟩

end Quark.Phases
