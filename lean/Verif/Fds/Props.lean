import Verif.Fds.Model

/-!
# How many cases a runner can grade: C182
-/

namespace Quark.Fds

open Quark.Grade
open Quark.MetaFile (Verdict)
open Quark.Validator (Env sampleEnv)

/-- The number of cases of a problem. -/
def caseCount (p : Problem) : Nat := (p.groups.map fun g => g.cases.length).sum

/-- The files that are there. -/
def present (files : List (String × Option (List UInt8))) : List (String × List UInt8) :=
  files.filterMap fun f => f.2.map fun b => (f.1, b)

/-! ### Enough descriptors -/

theorem openFile_enough {β : Type} {free : Nat → Nat} {B : Nat} (hB : ∀ k, B ≤ free k) {s : Fds} (hs : s.held + 1 ≤ B)
    (f : Option β) : (openFile free s f).2 = f ∧ (openFile free s f).1.held ≤ s.held + 1 := by
  cases f with
  | none => exact ⟨rfl, by simp [openFile]⟩
  | some b =>
    unfold openFile
    dsimp only
    rw [if_pos (by have := hB s.asked; omega)]
    exact ⟨rfl, le_refl _⟩

theorem openCase_enough {free : Nat → Nat} {B : Nat} (hB : ∀ k, B ≤ free k) {s : Fds} (hs : s.held + 2 ≤ B) (c : Case) :
    (openCase free s c).2 = c ∧ (openCase free s c).1.held ≤ s.held + 2 := by
  obtain ⟨h1, h2⟩ := openFile_enough hB (s := s) (by omega) c.contestantOut
  unfold openCase
  rcases he : openFile free s c.contestantOut with ⟨s1, _ | b⟩
  · rw [he] at h1 h2
    dsimp only at h1 h2 ⊢
    refine ⟨?_, by omega⟩
    rw [h1]
  · rw [he] at h1 h2
    dsimp only at h1 h2 ⊢
    obtain ⟨h3, h4⟩ := openFile_enough hB (s := s1) (by omega) c.expectedOut
    refine ⟨?_, by omega⟩
    rw [h3]

theorem openCases_enough {free : Nat → Nat} {B : Nat} (hB : ∀ k, B ≤ free k) :
    ∀ (xs : List (Case × CaseResult)) (s : Fds), s.held + 2 * xs.length ≤ B →
      (openCases free s xs).2 = xs.map Prod.fst ∧ (openCases free s xs).1.held ≤ s.held + 2 * xs.length
  | [], s, _ => ⟨rfl, by simp [openCases]⟩
  | (c, r) :: rest, s, hs => by
    rw [List.length_cons] at hs
    unfold openCases
    dsimp only
    by_cases hr : r.verdict = .OK
    · rw [if_pos hr]
      obtain ⟨h1, h2⟩ := openCase_enough hB (s := s) (by omega) c
      obtain ⟨h3, h4⟩ := openCases_enough hB rest (openCase free s c).1 (by omega)
      refine ⟨?_, ?_⟩
      · rw [h1, h3]; rfl
      · rw [List.length_cons]; omega
    · rw [if_neg hr]
      obtain ⟨h3, h4⟩ := openCases_enough hB rest s (by omega)
      refine ⟨?_, ?_⟩
      · dsimp only; rw [h3]; rfl
      · rw [List.length_cons]; dsimp only; omega

theorem openGroups_enough {free : Nat → Nat} {B : Nat} (hB : ∀ k, B ≤ free k) :
    ∀ (ys : List (Group × List (Case × CaseResult))) (s : Fds), (∀ y ∈ ys, y.2.map Prod.fst = y.1.cases) →
      s.held + 2 * (ys.map fun y => y.2.length).sum ≤ B →
      (openGroups free s ys).2 = ys.map Prod.fst ∧
        (openGroups free s ys).1.held ≤ s.held + 2 * (ys.map fun y => y.2.length).sum
  | [], s, _, _ => ⟨rfl, by simp [openGroups]⟩
  | (g, xs) :: rest, s, hg, hs => by
    rw [List.map_cons, List.sum_cons] at hs
    dsimp only at hs
    unfold openGroups
    dsimp only
    obtain ⟨h1, h2⟩ := openCases_enough hB xs s (by omega)
    obtain ⟨h3, h4⟩ := openGroups_enough hB rest (openCases free s xs).1 (fun y hy => hg y (by simp [hy])) (by omega)
    refine ⟨?_, ?_⟩
    · rw [h1, h3, List.map_cons]
      have := hg (g, xs) (by simp)
      dsimp only at this ⊢
      rw [this]
    · rw [List.map_cons, List.sum_cons]; dsimp only; omega

theorem archive_enough {free : Nat → Nat} {B : Nat} (hB : ∀ k, B ≤ free k) :
    ∀ (files : List (String × Option (List UInt8))) (s : Fds), s.held + files.length ≤ B →
      (archive free s files).2 = present files
  | [], s, _ => rfl
  | (n, f) :: rest, s, hs => by
    rw [List.length_cons] at hs
    obtain ⟨h1, h2⟩ := openFile_enough hB (s := s) (by omega) f
    unfold archive
    rcases he : openFile free s f with ⟨s1, _ | b⟩
    · rw [he] at h1 h2
      dsimp only at h1 h2 ⊢
      rw [archive_enough hB rest s1 (by omega), ← h1]
      rfl
    · rw [he] at h1 h2
      dsimp only at h1 h2 ⊢
      rw [archive_enough hB rest s1 (by omega), ← h1]
      rfl

/-- The groups and cases that are graded are those of the problem. -/
theorem executed (p : Problem) :
    (∀ y ∈ (runGroups p { events := (compileAll p.compiles).1 } p.groups).2, y.2.map Prod.fst = y.1.cases) ∧
    (runGroups p { events := (compileAll p.compiles).1 } p.groups).2.map Prod.fst = p.groups ∧
    ((runGroups p { events := (compileAll p.compiles).1 } p.groups).2.map fun y => y.2.length).sum = caseCount p := by
  obtain ⟨h1, h2⟩ := groups_of (runGroups_fst p { events := (compileAll p.compiles).1 } p.groups)
  refine ⟨fun y hy => (h1 y hy).2, h2, ?_⟩
  unfold caseCount
  conv_rhs => rw [← h2]
  rw [List.map_map]
  congr 1
  refine List.map_congr_left fun y hy => ?_
  have := congrArg List.length (h1 y hy).2
  simpa using this

/-- **C182** (as far as it holds). If at any time there is a descriptor for two files of each case and one more, the
result is the one of grading without a limit; with one more for each generated file, all of them that are there are
sent. -/
theorem C182_enough_partial (free : Nat → Nat) (env : Env) (p : Problem) (hc : Compiles p)
    (files : List (String × Option (List UInt8))) (h : ∀ k, 2 * caseCount p + 1 ≤ free k) :
    (outcome free env p files).1 = grade env p ∧
    ((∀ k, 2 * caseCount p + 1 + files.length ≤ free k) → (outcome free env p files).2 = present files) := by
  obtain ⟨h1, h2, h3⟩ := executed p
  obtain ⟨h4, h5⟩ := openGroups_enough h (runGroups p { events := (compileAll p.compiles).1 } p.groups).2 {} h1
    (by rw [h3]; simp)
  rw [h3] at h5
  rw [h2] at h4
  unfold outcome
  rw [if_pos ⟨hc.1, compileAll_ok _ hc.2⟩]
  rcases he : openGroups free {} (runGroups p { events := (compileAll p.compiles).1 } p.groups).2 with ⟨s, gs⟩
  rw [he] at h4 h5
  dsimp only at h4 h5 ⊢
  have hh : s.held ≤ 2 * caseCount p := by simpa using h5
  subst h4
  unfold upload
  rw [if_pos (by have := h s.asked; omega)]
  dsimp only
  rw [if_pos (by
    have := h (archive free { held := s.held + 1, asked := s.asked + 1 } files).1.asked
    omega)]
  refine ⟨rfl, fun hm => ?_⟩
  exact archive_enough hm files _ (by dsimp only; omega)

/-! ### A fixed limit -/

theorem openCase_limit {L : Nat} {s : Fds} (hs : s.held ≤ L) {c : Case} (h1 : c.contestantOut ≠ none)
    (h2 : c.expectedOut ≠ none) : (openCase (fun _ => L) s c).1.held = min (s.held + 2) L := by
  obtain ⟨a, ha⟩ := Option.ne_none_iff_exists'.1 h1
  obtain ⟨b, hb⟩ := Option.ne_none_iff_exists'.1 h2
  unfold openCase openFile
  rw [ha, hb]
  dsimp only
  by_cases h : s.held < L
  · rw [if_pos h]
    dsimp only
    by_cases h' : s.held + 1 < L
    · rw [if_pos h']; dsimp only; omega
    · rw [if_neg h']; dsimp only; omega
  · rw [if_neg h]; dsimp only; omega

theorem openCases_limit {L : Nat} : ∀ (xs : List (Case × CaseResult)) (s : Fds), s.held ≤ L →
    (∀ x ∈ xs, x.2.verdict = .OK ∧ x.1.contestantOut ≠ none ∧ x.1.expectedOut ≠ none) →
    (openCases (fun _ => L) s xs).1.held = min (s.held + 2 * xs.length) L
  | [], s, hs, _ => by simp [openCases, hs]
  | (c, r) :: rest, s, hs, h => by
    obtain ⟨h1, h2, h3⟩ := h (c, r) (by simp)
    unfold openCases
    dsimp only at h1 h2 h3 ⊢
    rw [if_pos h1]
    have h4 := openCase_limit hs h2 h3
    rw [openCases_limit rest _ (by omega) (fun x hx => h x (by simp [hx])), h4, List.length_cons]
    omega

theorem openGroups_limit {L : Nat} : ∀ (ys : List (Group × List (Case × CaseResult))) (s : Fds), s.held ≤ L →
    (∀ y ∈ ys, ∀ x ∈ y.2, x.2.verdict = .OK ∧ x.1.contestantOut ≠ none ∧ x.1.expectedOut ≠ none) →
    (openGroups (fun _ => L) s ys).1.held = min (s.held + 2 * (ys.map fun y => y.2.length).sum) L
  | [], s, hs, _ => by simp [openGroups, hs]
  | (g, xs) :: rest, s, hs, h => by
    unfold openGroups
    dsimp only
    have h4 := openCases_limit xs s hs (h (g, xs) (by simp))
    rw [openGroups_limit rest _ (by omega) (fun y hy => h y (by simp [hy])), h4, List.map_cons, List.sum_cons]
    dsimp only
    omega

theorem archive_limit {L : Nat} : ∀ (files : List (String × Option (List UInt8))) (s : Fds),
    (archive (fun _ => L) s files).2 = (present files).take (L - s.held)
  | [], s => by simp [archive, present]
  | (n, none) :: rest, s => by
    unfold archive openFile
    dsimp only
    rw [archive_limit rest]
    rfl
  | (n, some b) :: rest, s => by
    have hp : present ((n, some b) :: rest) = (n, b) :: present rest := rfl
    unfold archive openFile
    dsimp only
    by_cases h : s.held < L
    · rw [if_pos h]
      dsimp only
      rw [archive_limit rest, hp]
      have : L - s.held = L - (s.held + 1) + 1 := by omega
      rw [this, List.take_succ_cons]
    · rw [if_neg h]
      dsimp only
      rw [archive_limit rest]
      have : L - s.held = 0 := by omega
      simp [this]

/-- The cases of an accepted submission all ran well. -/
theorem accepted_ran {env : Env} {p : Problem} (hc : Compiles p) (hfs : FromSandbox p) (ho : Openable p)
    (hnc : p.validator.name ≠ "custom") (ha : (grade env p).verdict = .AC) :
    ∀ y ∈ (runGroups p { events := (compileAll p.compiles).1 } p.groups).2, ∀ x ∈ y.2,
      x.2.verdict = .OK ∧ x.1.contestantOut ≠ none ∧ x.1.expectedOut ≠ none := by
  obtain ⟨ys, hys, hf, hm, hg, -⟩ := grade_ok env p hc.1 (compileAll_ok _ hc.2)
  rw [← hys]
  intro y hy x hx
  obtain ⟨h1, h2⟩ := case_of hm y hy x hx
  have hop := ho y.1 h1 x.1 h2
  rw [if_neg hnc] at hop
  refine ⟨?_, hop⟩
  have hall := (C15_ac_iff_all_ac_partial env p hc hfs ho).1.1 ha
  have hmem : fin env p x ∈ (grade env p).cases := by
    unfold RunResult.cases
    rw [hg]
    exact List.mem_flatMap.2 ⟨groupRes env p y, List.mem_map_of_mem hy, List.mem_map_of_mem hx⟩
  have hv := hall _ hmem
  by_contra hne
  obtain ⟨-, -, -, -, -, -, h7, -⟩ := fin_spec env p x (hf y hy x hx)
  rw [(h7 hne).1] at hv
  have hs := fresh_sandbox hfs hm hf y hy x hx
  rw [hv] at hs
  exact absurd hs (by unfold SandboxVerdict; decide)

/-- **C182**, exactly, for an accepted submission and a fixed number of descriptors: with more than two for each case it
is accepted, and as many of its files as there are descriptors left are sent; otherwise it is reported as a judge error
and none is. -/
theorem C182_limit_partial (L : Nat) (env : Env) (p : Problem) (hc : Compiles p) (hfs : FromSandbox p)
    (ho : Openable p) (hnc : p.validator.name ≠ "custom") (ha : (grade env p).verdict = .AC)
    (files : List (String × Option (List UInt8))) :
    (2 * caseCount p < L → outcome (fun _ => L) env p files =
      (grade env p, (present files).take (L - 2 * caseCount p - 1))) ∧
    (L ≤ 2 * caseCount p → (outcome (fun _ => L) env p files).1.verdict = .JE ∧
      (outcome (fun _ => L) env p files).1.score = 0 ∧ (outcome (fun _ => L) env p files).2 = []) := by
  have hheld := openGroups_limit (L := L) (runGroups p { events := (compileAll p.compiles).1 } p.groups).2 {}
    (Nat.zero_le _) (accepted_ran hc hfs ho hnc ha)
  obtain ⟨h1, h2, h3⟩ := executed p
  rw [h3] at hheld
  constructor
  · intro hL
    obtain ⟨h4, -⟩ := openGroups_enough (free := fun _ => L) (B := L) (fun _ => le_refl _)
      (runGroups p { events := (compileAll p.compiles).1 } p.groups).2 {} h1 (by rw [h3]; dsimp only; omega)
    rw [h2] at h4
    unfold outcome
    rw [if_pos ⟨hc.1, compileAll_ok _ hc.2⟩]
    rcases he : openGroups (fun _ => L) {} (runGroups p { events := (compileAll p.compiles).1 } p.groups).2 with ⟨s, gs⟩
    rw [he] at hheld h4
    dsimp only at hheld h4 ⊢
    subst h4
    have hs : s.held = 2 * caseCount p := by omega
    unfold upload
    rw [if_pos (show s.held < L by omega)]
    dsimp only
    rw [if_pos (show s.held < L by omega), archive_limit]
    dsimp only
    rw [hs, Nat.sub_sub]
  · intro hL
    unfold outcome
    rw [if_pos ⟨hc.1, compileAll_ok _ hc.2⟩]
    rcases he : openGroups (fun _ => L) {} (runGroups p { events := (compileAll p.compiles).1 } p.groups).2 with ⟨s, gs⟩
    rw [he] at hheld
    dsimp only at hheld ⊢
    unfold upload
    rw [if_neg (show ¬ s.held < L by omega)]
    exact ⟨rfl, rfl, rfl⟩

/-! ### The counterexamples -/

/-- A case of an output-only problem which was answered with these bytes, where `1` is expected. -/
def answered (out : List UInt8) (i : Nat) : Case :=
  { name := toString i, weight := 1, procs := [], catFile := some false, contestantOut := some out
    expectedOut := some [0x31] }

/-- An output-only problem with these cases. -/
def outputOnly (cases : List Case) : Problem :=
  { maxScore := 100, wallLimit := 60, validator := ⟨"token", none⟩, cat := true, compiles := []
    groups := [{ name := "a", cases := cases }] }

/-- A submission with `n` right answers. -/
def right (n : Nat) : Problem := outputOnly ((List.range n).map (answered [0x31]))

theorem right_hyps (n : Nat) : Compiles (right n) ∧ FromSandbox (right n) ∧ Openable (right n) ∧
    caseCount (right n) = n := by
  refine ⟨⟨rfl, fun b hb => by simp [right, outputOnly] at hb⟩, ?_, ?_, by simp [caseCount, right, outputOnly]⟩
  · intro g hg c hcm r hr
    simp only [right, outputOnly, List.mem_singleton] at hg
    subst hg
    obtain ⟨i, -, rfl⟩ := List.mem_map.1 hcm
    simp [answered] at hr
  · intro g hg c hcm
    simp only [right, outputOnly, List.mem_singleton] at hg
    subst hg
    obtain ⟨i, -, rfl⟩ := List.mem_map.1 hcm
    simp [right, outputOnly, answered]

theorem right_cases (n : Nat) : ∀ (is : List Nat) (s : RunState), s.wallTime = 0 →
    ∀ x ∈ (runCases (right n) s (is.map (answered [0x31]))).2, x.2.verdict = .OK ∧ ∃ i, x.1 = answered [0x31] i
  | [], _, _ => by simp [runCases]
  | i :: is, s, hs => by
    have he : execCase (right n) s.wallTime (answered [0x31] i) = ({ verdict := .OK }, []) := by
      rw [hs]
      unfold execCase
      rw [if_neg (show ¬ (right n).wallLimit < 0 from show ¬ (60 : ℚ) < 0 by decide +kernel),
        if_pos (show (right n).cat = true from rfl)]
      rfl
    rw [List.map_cons]
    unfold runCases runCase
    rw [he]
    dsimp only
    intro x hx
    rcases List.mem_cons.1 hx with rfl | hx
    · exact ⟨rfl, i, rfl⟩
    · refine right_cases n is _ ?_ x hx
      dsimp only
      rw [hs]
      decide +kernel

theorem right_accepted (n : Nat) : (grade sampleEnv (right n)).verdict = .AC := by
  obtain ⟨hc, hfs, ho, -⟩ := right_hyps n
  refine (C15_ac_iff_all_ac_partial sampleEnv (right n) hc hfs ho).1.2 fun r hr => ?_
  obtain ⟨ys, hys, hf, -, hg, -⟩ := grade_ok sampleEnv (right n) hc.1 (compileAll_ok _ hc.2)
  unfold RunResult.cases at hr
  rw [hg] at hr
  obtain ⟨gr, hgr, hr⟩ := List.mem_flatMap.1 hr
  obtain ⟨y, hy, rfl⟩ := List.mem_map.1 hgr
  obtain ⟨x, hx, rfl⟩ := List.mem_map.1 hr
  have hx' : x.2.verdict = .OK ∧ ∃ i, x.1 = answered [0x31] i := by
    rw [hys] at hy
    have : (runGroups (right n) { events := (compileAll (right n).compiles).1 } (right n).groups).2 =
        [((right n).groups.head (by simp [right, outputOnly]),
          (runCases (right n) { events := (compileAll (right n).compiles).1 }
            ((List.range n).map (answered [0x31]))).2)] := rfl
    rw [this, List.mem_singleton] at hy
    subst hy
    exact right_cases n _ _ rfl x hx
  obtain ⟨h1, i, h2⟩ := hx'
  rcases x with ⟨c, r⟩
  dsimp only at h1 h2
  subst h2
  unfold fin validateCase
  dsimp only
  rw [if_pos h1]
  have hcf : comparedFiles (right n) (answered [0x31] i) = (some [0x31], some [0x31]) := rfl
  have hfr := hf y hy _ hx
  have hq : caseScore sampleEnv (right n) (answered [0x31] i) [0x31] [0x31] = 1 :=
    show caseScore sampleEnv (right 0) (answered [0x31] 0) [0x31] [0x31] = 1 by decide +kernel
  rw [hcf]
  dsimp only
  rw [hq, if_pos rfl]

/-- **C182 is false of this code**: whatever the number of descriptors, some submission whose answers are all right is
reported as a judge error, for the number of its cases alone. -/
theorem C182_false : ∀ L : Nat, ∃ p : Problem,
    (grade sampleEnv p).verdict = .AC ∧ (grade sampleEnv p).score = 1 ∧
    ∀ files, (outcome (fun _ => L) sampleEnv p files).1.verdict = .JE ∧
      (outcome (fun _ => L) sampleEnv p files).1.score = 0 ∧ (outcome (fun _ => L) sampleEnv p files).2 = [] := by
  intro L
  obtain ⟨hc, hfs, ho, hn⟩ := right_hyps L
  have ha := right_accepted L
  refine ⟨right L, ha, (C15_ac_iff_all_ac_partial sampleEnv _ hc hfs ho).2 ha, fun files => ?_⟩
  exact (C182_limit_partial L sampleEnv (right L) hc hfs ho (show "token" ≠ "custom" by decide) ha files).2 (by rw [hn]; omega)

-- C182_limit_partial of a problem with two cases, with six descriptors and with four.
example : (outcome (fun _ => 6) sampleEnv (right 2) [("1.out", some [0x31]), ("2.out", none), ("2.err", some [])]) =
      (grade sampleEnv (right 2), [("1.out", [0x31])]) ∧
    (outcome (fun _ => 4) sampleEnv (right 2) [("1.out", some [0x31])]).1.verdict = .JE := by
  obtain ⟨hc, hfs, ho, hn⟩ := right_hyps 2
  have h := fun L files =>
    C182_limit_partial L sampleEnv (right 2) hc hfs ho (by decide) (right_accepted 2) files
  refine ⟨(h 6 _).1 (by rw [hn]; decide), ((h 4 _).2 (by rw [hn])).1⟩

/-- A right answer and a wrong one. -/
def halfRight : Problem := outputOnly [answered [0x31] 0, answered [0x32] 1]

/-- While the second case is compared, descriptors are short. -/
def shortage (k : Nat) : Nat := if k < 3 then 2 else 10

/-- **C182 is false of this code** also to the other side: if descriptors are short while a wrong answer is compared and
other runs free them then, the submission is accepted with full score. -/
theorem C182_false_accepts : (grade sampleEnv halfRight).verdict = .WA ∧ (grade sampleEnv halfRight).score = 0 ∧
    (outcome shortage sampleEnv halfRight []).1.verdict = .AC ∧ (outcome shortage sampleEnv halfRight []).1.score = 1 := by
  decide +kernel

-- With two descriptors for each case and one more at any time, the result is that of `grade`.
example (free : Nat → Nat) (h : ∀ k, 5 ≤ free k) : (outcome free sampleEnv halfRight []).1.verdict = .WA := by
  rw [(C182_enough_partial free sampleEnv halfRight ⟨rfl, fun b hb => by simp [halfRight, outputOnly] at hb⟩ [] h).1]
  decide +kernel

end Quark.Fds
