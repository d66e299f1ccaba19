import Verif.Benchmark.Model

/-! Property C155: the benchmark of a runner. -/
namespace Quark.Benchmark

/-! ### Specification -/

/-- The three measurements of a benchmark that works: in this order, the cases can be loaded and graded, as the attempts
0, 1 and 2. -/
def Measures (h : Host) (io cpu memory : Graded) : Prop :=
  h.add "IO" = true ∧ h.grade 0 "IO" = some io ∧ h.add "CPU" = true ∧ h.grade 1 "CPU" = some cpu ∧
  h.add "Memory" = true ∧ h.grade 2 "Memory" = some memory

/-- The benchmark works. -/
def Works (h : Host) : Prop := ∃ io cpu memory, Measures h io cpu memory

/-- The inputs that are held after these events. -/
def holds (name : String) (evs : List Event) : Int :=
  evs.count (.acquire name) - evs.count (.release name)

/-! ### Proofs -/

/-- **C155** (results). A benchmark yields results exactly if all three programs could be loaded and graded; they are
then those of the three programs. -/
theorem C155_results (h : Host) (r : Results) :
    (runHostBenchmark h).2 = some r ↔ ∃ io cpu memory, Measures h io cpu memory ∧
      r = [("IO", ⟨io.time, io.wallTime, io.memory⟩), ("CPU", ⟨cpu.time, cpu.wallTime, cpu.memory⟩),
        ("Memory", ⟨memory.time, memory.wallTime, memory.memory⟩)] := by
  unfold Measures
  simp only [runHostBenchmark, cases, loop]
  cases a1 : h.add "IO" <;> cases g1 : h.grade 0 "IO" <;> cases a2 : h.add "CPU" <;> cases g2 : h.grade 1 "CPU" <;>
    cases a3 : h.add "Memory" <;> cases g3 : h.grade 2 "Memory" <;> simp
  constructor
  · rintro rfl; exact ⟨_, _, _, ⟨rfl, rfl, rfl⟩, rfl⟩
  · rintro ⟨_, _, _, ⟨rfl, rfl, rfl⟩, rfl⟩; rfl

/-- **C155** (in order, and nothing after a failure). The programs are graded one after the other; after one that could
not be loaded or graded no other is. -/
theorem C155_stops (h : Host) :
    (.grade 0 "IO" ∈ (runHostBenchmark h).1 ↔ h.add "IO" = true) ∧
    (.grade 1 "CPU" ∈ (runHostBenchmark h).1 ↔
      h.add "IO" = true ∧ (h.grade 0 "IO").isSome ∧ h.add "CPU" = true) ∧
    (.grade 2 "Memory" ∈ (runHostBenchmark h).1 ↔
      h.add "IO" = true ∧ (h.grade 0 "IO").isSome ∧ h.add "CPU" = true ∧ (h.grade 1 "CPU").isSome ∧
        h.add "Memory" = true) := by
  simp only [runHostBenchmark, cases, loop]
  cases a1 : h.add "IO" <;> cases g1 : h.grade 0 "IO" <;> cases a2 : h.add "CPU" <;> cases g2 : h.grade 1 "CPU" <;>
    cases a3 : h.add "Memory" <;> cases g3 : h.grade 2 "Memory" <;> simp

/-- **C155** (nothing is kept). Whatever fails, the lock of the runner is taken first and given back last, everything
else is done in between, every input that was acquired is released exactly once, and a program is only graded while
its input is held. -/
theorem C155_released (h : Host) :
    ∃ evs, (runHostBenchmark h).1 = [.lock] ++ evs ++ [.unlock] ∧ .lock ∉ evs ∧ .unlock ∉ evs ∧
      (∀ name, holds name evs = 0) ∧
      ∀ before i name after, evs = before ++ .grade i name :: after → holds name before = 1 := by
  have key : ∀ (cs held : List String) (idx : Nat) (acc : Results), (held ++ cs).Nodup →
      .lock ∉ (loop h idx held acc cs).1 ∧ .unlock ∉ (loop h idx held acc cs).1 ∧
      (∀ name, holds name (loop h idx held acc cs).1 = - (held.count name : Int)) ∧
      ∀ before i name after, (loop h idx held acc cs).1 = before ++ .grade i name :: after →
        holds name before = 1 := by
    have rel : ∀ (held : List String), (.lock ∉ held.map Event.release ∧ .unlock ∉ held.map Event.release) ∧
        (∀ name, (held.map Event.release).count (.acquire name) = 0 ∧
          (held.map Event.release).count (.release name) = held.count name) ∧
        ∀ i name, .grade i name ∉ held.map Event.release := by
      intro held
      refine ⟨by simp, fun name => ⟨?_, ?_⟩, by simp⟩
      · rw [List.count_eq_zero]; simp
      · induction held with
        | nil => rfl
        | cons x held ih => simp only [List.map_cons, List.count_cons, ih]; simp
    intro cs
    induction cs with
    | nil =>
      intro held idx acc _
      obtain ⟨⟨h1, h2⟩, h3, h4⟩ := rel held
      refine ⟨h1, h2, fun name => ?_, fun before i name after he => ?_⟩
      · simp only [loop, holds, h3 name]; omega
      · exact absurd (by rw [loop] at he; simp only at he; rw [he]; simp) (h4 i name)
    | cons c cs ih =>
      intro held idx acc hn
      have hn2 : ((c :: held) ++ cs).Nodup := by
        rw [List.cons_append, List.nodup_cons]
        rw [List.nodup_append, List.nodup_cons] at hn
        refine ⟨?_, List.nodup_append.mpr ⟨hn.1, hn.2.1.2, fun a ha b hb => hn.2.2 a ha b (List.mem_cons_of_mem _ hb)⟩⟩
        rw [List.mem_append]
        rintro (hc | hc)
        · exact hn.2.2 c hc c (by simp) rfl
        · exact hn.2.1.1 hc
      have hheld : held.count c = 0 := by
        rw [List.count_eq_zero]
        intro hc
        rw [List.nodup_append] at hn
        exact hn.2.2 c hc c (by simp) rfl
      rw [loop]
      by_cases ha : h.add c = true
      · rw [if_pos ha]
        -- the tail, after the two events of the case
        have fin : ∀ (evs : List Event),
            (.lock ∉ evs ∧ .unlock ∉ evs ∧ (∀ name, holds name evs = - ((c :: held).count name : Int)) ∧
              ∀ before i name after, evs = before ++ .grade i name :: after → name ≠ c ∧ holds name before = 1 ∨
                name = c ∧ holds name before = 0) →
            .lock ∉ [.acquire c, .grade idx c] ++ evs ∧ .unlock ∉ [.acquire c, .grade idx c] ++ evs ∧
              (∀ name, holds name ([.acquire c, .grade idx c] ++ evs) = - (held.count name : Int)) ∧
              ∀ before i name after, [.acquire c, .grade idx c] ++ evs = before ++ .grade i name :: after →
                holds name before = 1 := by
          rintro evs ⟨h1, h2, h3, h4⟩
          refine ⟨by simp [h1], by simp [h2], fun name => ?_, fun before i name after he => ?_⟩
          · have := h3 name
            unfold holds at this ⊢
            simp only [List.count_append, List.count_cons, List.count_nil] at this ⊢
            by_cases hc : c = name
            · subst hc; simp at this ⊢; omega
            · simp [hc] at this ⊢; omega
          · rcases before with _ | ⟨x, _ | ⟨y, before⟩⟩
            · simp at he
            · simp only [List.cons_append, List.nil_append, List.cons.injEq, Event.grade.injEq] at he
              obtain ⟨rfl, ⟨rfl, rfl⟩, -⟩ := he
              simp [holds]
            · simp only [List.cons_append, List.nil_append, List.cons.injEq] at he
              obtain ⟨rfl, rfl, he⟩ := he
              rcases h4 before i name after he with ⟨hc, h⟩ | ⟨rfl, h⟩
              · unfold holds at h ⊢
                simp only [List.count_cons]
                simp [Ne.symm hc]
                exact h
              · unfold holds at h ⊢
                simp only [List.count_cons]
                simp
                omega
        cases hg : h.grade idx c with
        | none =>
          simp only
          refine fin _ ?_
          obtain ⟨⟨h1, h2⟩, h3, h4⟩ := rel (c :: held)
          refine ⟨h1, h2, fun name => by simp only [holds, h3 name]; omega, fun before i name after he => ?_⟩
          exact absurd (by rw [he]; simp) (h4 i name)
        | some g =>
          simp only
          refine fin _ ?_
          obtain ⟨h1, h2, h3, h4⟩ := ih (c :: held) (idx + 1) (acc ++ [(c, ⟨g.time, g.wallTime, g.memory⟩)]) hn2
          refine ⟨h1, h2, h3, fun before i name after he => Or.inl ⟨?_, h4 before i name after he⟩⟩
          rintro rfl
          -- the rest only grades the remaining cases
          have only : ∀ (cs held : List String) (idx : Nat) (acc : Results) (i : Nat) (name : String),
              .grade i name ∈ (loop h idx held acc cs).1 → name ∈ cs := by
            intro cs
            induction cs with
            | nil => intro held idx acc i name hm; simp [loop] at hm
            | cons d cs ih' =>
              intro held idx acc i name hm
              rw [loop] at hm
              by_cases hd : h.add d = true
              · rw [if_pos hd] at hm
                cases hgd : h.grade idx d with
                | none => rw [hgd] at hm; simp at hm; simp [hm.2]
                | some g' =>
                  rw [hgd] at hm
                  simp only [List.cons_append, List.nil_append, List.mem_cons, reduceCtorEq, Event.grade.injEq,
                    false_or] at hm
                  rcases hm with ⟨-, rfl⟩ | hm
                  · simp
                  · exact List.mem_cons_of_mem _ (ih' _ _ _ _ _ hm)
              · rw [if_neg hd] at hm; simp at hm
          have hin := only cs _ _ _ i name (by rw [he]; simp)
          rw [List.cons_append, List.nodup_cons] at hn2
          exact hn2.1 (List.mem_append_right _ hin)
      · rw [if_neg ha]
        obtain ⟨⟨h1, h2⟩, h3, h4⟩ := rel held
        refine ⟨h1, h2, fun name => by simp only [holds, h3 name]; omega, fun before i name after he => ?_⟩
        exact absurd (by simp only at he; rw [he]; simp) (h4 i name)
  obtain ⟨h1, h2, h3, h4⟩ := key cases [] 0 [] (by decide)
  exact ⟨(loop h 0 [] [] cases).1, rfl, h1, h2, fun name => by simpa using h3 name, h4⟩

theorem get_three (a b c : Measure) :
    Results.get [("IO", a), ("CPU", b), ("Memory", c)] "IO" = a ∧
    Results.get [("IO", a), ("CPU", b), ("Memory", c)] "CPU" = b ∧
    Results.get [("IO", a), ("CPU", b), ("Memory", c)] "Memory" = c := by
  refine ⟨?_, ?_, ?_⟩ <;> simp [Results.get, List.lookup]

/-- **C155** (what operators see). After any sequence of benchmarks the nine gauges are the times, the wall times and the
memory of the three programs in the last benchmark that worked, and 0 if none did. A benchmark that fails changes
none of them. -/
theorem C155_shown (earlier : List Host) (last : Host) (later : List Host) (hlater : ∀ h ∈ later, ¬ Works h) :
    (∀ io cpu memory, Measures last io cpu memory →
      shown (earlier ++ last :: later) "io_time" = io.time ∧
      shown (earlier ++ last :: later) "io_wall_time" = io.wallTime ∧
      shown (earlier ++ last :: later) "io_memory" = io.memory ∧
      shown (earlier ++ last :: later) "cpu_time" = cpu.time ∧
      shown (earlier ++ last :: later) "cpu_wall_time" = cpu.wallTime ∧
      shown (earlier ++ last :: later) "cpu_memory" = cpu.memory ∧
      shown (earlier ++ last :: later) "memory_time" = memory.time ∧
      shown (earlier ++ last :: later) "memory_wall_time" = memory.wallTime ∧
      shown (earlier ++ last :: later) "memory_memory" = memory.memory) ∧
    ∀ n, shown later n = 0 := by
  have skip : ∀ (l : List Host) (g : Gauges), (∀ h ∈ l, ¬ Works h) →
      l.foldl (fun g h => gaugesUpdate g (runHostBenchmark h).2) g = g := by
    intro l
    induction l with
    | nil => intro g _; rfl
    | cons h l ih =>
      intro g hl
      rw [List.foldl_cons, ih _ (fun x hx => hl x (List.mem_cons_of_mem _ hx))]
      have : (runHostBenchmark h).2 = none := by
        cases hr : (runHostBenchmark h).2 with
        | none => rfl
        | some r =>
          obtain ⟨io, cpu, memory, hm, -⟩ := (C155_results h r).mp hr
          exact absurd ⟨io, cpu, memory, hm⟩ (hl h (by simp))
      rw [this]
      rfl
  refine ⟨fun io cpu memory hm => ?_, fun n => ?_⟩
  · have hr := (C155_results last _).mpr ⟨io, cpu, memory, hm, rfl⟩
    unfold shown
    rw [List.foldl_append, List.foldl_cons, skip later _ hlater, hr]
    obtain ⟨e1, e2, e3⟩ := get_three ⟨io.time, io.wallTime, io.memory⟩ ⟨cpu.time, cpu.wallTime, cpu.memory⟩
      ⟨memory.time, memory.wallTime, memory.memory⟩
    simp [gaugesUpdate, e1, e2, e3]
  · unfold shown
    rw [skip later _ hlater]

/-- **C155** (verdicts do not matter). Whether the programs compiled, or answered right, has no influence: a benchmark in
which they did not is as good as any. -/
theorem C155_verdict_ignored (h h' : Host) (ha : h.add = h'.add)
    (hg : ∀ i c, (h.grade i c).map (fun g => (g.time, g.wallTime, g.memory)) =
      (h'.grade i c).map fun g => (g.time, g.wallTime, g.memory)) :
    runHostBenchmark h = runHostBenchmark h' := by
  have key : ∀ (cs held : List String) (idx : Nat) (acc : Results), loop h idx held acc cs = loop h' idx held acc cs := by
    intro cs
    induction cs with
    | nil => intros; rfl
    | cons c cs ih =>
      intro held idx acc
      rw [loop, loop, ← ha]
      have := hg idx c
      cases h1 : h.grade idx c <;> cases h2 : h'.grade idx c <;> rw [h1, h2] at this <;> simp at this
      · obtain ⟨e1, e2, e3⟩ := this
        simp only [ih, e1, e2, e3]
  unfold runHostBenchmark
  rw [key]

/-! ### Concrete cases -/

/-- A host on which everything takes some time. -/
def good : Host := ⟨fun _ => true, fun i _ => some ⟨"AC", i + 1, i + 10, i + 100⟩⟩
/-- The memory benchmark cannot be graded. -/
def broken : Host := ⟨fun _ => true, fun i _ => if i = 2 then none else some ⟨"AC", 7, 7, 7⟩⟩

example : Works good ∧ ¬ Works broken := by
  refine ⟨⟨⟨"AC", 1, 10, 100⟩, ⟨"AC", 2, 11, 101⟩, ⟨"AC", 3, 12, 102⟩, by unfold Measures; decide⟩, ?_⟩
  rintro ⟨io, cpu, memory, h⟩
  have := h.2.2.2.2.2
  simp [broken] at this

example : (shown [good, broken] "io_time", shown [good, broken] "cpu_wall_time", shown [good, broken] "memory_memory") =
    (1, 11, 102) := by decide

example : (runHostBenchmark broken).1 = [.lock, .acquire "IO", .grade 0 "IO", .acquire "CPU", .grade 1 "CPU",
    .acquire "Memory", .grade 2 "Memory", .release "Memory", .release "CPU", .release "IO", .unlock] := by decide

end Quark.Benchmark
