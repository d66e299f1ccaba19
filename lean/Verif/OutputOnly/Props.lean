import Verif.OutputOnly.Model
import Verif.Grade.Props2

namespace Quark.OutputOnly
open Quark.Grade
open Quark.MetaFile (Verdict)
open Quark.Validator (Env sampleEnv)

/-! ## Specification -/

/-- The member is a file for this case: its path ends in `case.out`, in whatever directory. -/
def Named (e : Entry) (case : List Char) : Prop :=
  '/' ∉ case ∧ (e.name = case ++ ['.', 'o', 'u', 't'] ∨ ∃ dir, e.name = dir ++ '/' :: case ++ ['.', 'o', 'u', 't'])

/-- It is larger than the output limit. -/
def TooLarge (limit : Int) (e : Entry) : Prop := limit < e.size

/-- It is within the limit and can be read. -/
def Usable (limit : Int) (e : Entry) : Prop :=
  (e.size : Int) ≤ limit ∧ e.opens = true ∧ e.intact = true ∧ e.raw.length = e.size

/-- `e` is the last member for this case that is too large or usable. -/
def Selected (limit : Int) (es : List Entry) (case : List Char) (e : Entry) : Prop :=
  ∃ pre post, es = pre ++ e :: post ∧ Named e case ∧ (TooLarge limit e ∨ Usable limit e) ∧
    ∀ x ∈ post, Named x case → ¬ TooLarge limit x ∧ ¬ Usable limit x

/-- There is no such member. -/
def Missing (limit : Int) (es : List Entry) (case : List Char) : Prop :=
  ∀ x ∈ es, Named x case → ¬ TooLarge limit x ∧ ¬ Usable limit x

/-- The verdict of a case that ran, from its score. -/
def scoreVerdict (q : ℚ) : Verdict := if q = 1 then .AC else if q = 0 then .WA else .PA

/-! ## Lemmas -/

theorem takeWhile_noslash (l : List Char) : '/' ∉ l.takeWhile (· ≠ '/') := by
  induction l with
  | nil => simp
  | cons x l ih =>
    rw [List.takeWhile_cons]
    split
    · rename_i h
      rw [List.mem_cons, not_or]
      exact ⟨fun e => by simp [← e] at h, ih⟩
    · simp

theorem takeWhile_all {l : List Char} (h : '/' ∉ l) (r : List Char) :
    (l ++ r).takeWhile (· ≠ '/') = l ++ r.takeWhile (· ≠ '/') := by
  induction l with
  | nil => rfl
  | cons x l ih =>
    rw [List.mem_cons, not_or] at h
    rw [List.cons_append, List.takeWhile_cons, if_pos (by simpa using fun e => h.1 e.symm), ih h.2]
    rfl

theorem baseName_noslash (name : List Char) : '/' ∉ baseName name := by
  unfold baseName
  rw [List.mem_reverse]
  exact takeWhile_noslash _

theorem baseName_of_noslash {name : List Char} (h : '/' ∉ name) : baseName name = name := by
  unfold baseName
  have := takeWhile_all (l := name.reverse) (by simpa using h) []
  rw [List.append_nil, List.takeWhile_nil, List.append_nil] at this
  rw [this, List.reverse_reverse]

theorem baseName_dir {dir n : List Char} (h : '/' ∉ n) : baseName (dir ++ '/' :: n) = n := by
  unfold baseName
  rw [List.reverse_append, List.reverse_cons, List.append_assoc, takeWhile_all (by simpa using h)]
  simp

theorem baseName_split (name : List Char) : name = baseName name ∨ ∃ dir, name = dir ++ '/' :: baseName name := by
  by_cases h : '/' ∈ name
  · right
    obtain ⟨a, b, hab, hb⟩ : ∃ a b, name = a ++ '/' :: b ∧ '/' ∉ b := by
      induction name with
      | nil => cases h
      | cons x l ih =>
        by_cases hl : '/' ∈ l
        · obtain ⟨a, b, rfl, hb⟩ := ih hl
          exact ⟨x :: a, b, rfl, hb⟩
        · rcases List.mem_cons.1 h with rfl | h'
          · exact ⟨[], l, rfl, hl⟩
          · exact absurd h' hl
    refine ⟨a, ?_⟩
    rw [hab, baseName_dir hb]
  · left; exact (baseName_of_noslash h).symm

theorem slash_outName {c : List Char} : '/' ∈ outName c ↔ '/' ∈ c := by
  unfold outName; simp

theorem outName_inj {a b : List Char} : outName a = outName b ↔ a = b := by
  unfold outName; simp

/-- The two checks the code makes, for a case name. -/
theorem named_iff (e : Entry) (case : List Char) :
    Named e case ↔ ['.', 'o', 'u', 't'] <:+ e.name ∧ baseName e.name = outName case := by
  constructor
  · rintro ⟨hc, h⟩
    have hc' : '/' ∉ outName case := fun h => hc (slash_outName.1 h)
    rcases h with h | ⟨dir, h⟩
    · exact ⟨⟨case, h.symm⟩, by rw [h]; exact baseName_of_noslash hc'⟩
    · refine ⟨⟨dir ++ '/' :: case, by rw [h]⟩, ?_⟩
      rw [h, List.append_assoc, List.cons_append]
      exact baseName_dir hc'
  · rintro ⟨-, hb⟩
    have hc : '/' ∉ case := by
      rw [← slash_outName, ← hb]; exact baseName_noslash _
    refine ⟨hc, ?_⟩
    rcases baseName_split e.name with h | ⟨dir, h⟩
    · left; rw [h, hb]; rfl
    · right; refine ⟨dir, ?_⟩
      rw [h, hb]; simp [outName]

theorem uint64_nonneg {x : Int} (h0 : 0 ≤ x) (h1 : x < 2 ^ 63) (n : Nat) : uint64 x < n ↔ x < n := by
  unfold uint64
  rw [Int.emod_eq_of_lt h0 (by omega)]
  omega

theorem usable_read {limit : Int} {e : Entry} (h : Usable limit e) : e.read = some e.raw := by
  obtain ⟨-, h1, h2, h3⟩ := h
  simp [Entry.read, h1, h2, h3]

theorem read_usable {limit : Int} {e : Entry} {d : List UInt8} (hs : ¬ TooLarge limit e) (h : e.read = some d) :
    Usable limit e ∧ d = e.raw := by
  unfold Entry.read at h
  split at h
  · split at h
    · rename_i h1 h2
      simp only [Option.some.injEq] at h
      exact ⟨⟨by unfold TooLarge at hs; omega, h1, h2.2, h2.1⟩, h.symm⟩
    · cases h
  · cases h

/-- What a member does to the entry of a case. -/
theorem parseEntry_at {limit : Int} (h0 : 0 ≤ limit) (h1 : limit < 2 ^ 63) {cases : List (List Char)} {case : List Char}
    (hc : case ∈ cases) (m : Files) (e : Entry) :
    (Named e case → TooLarge limit e → parseEntry limit cases m e (outName case) = some ⟨[], true⟩) ∧
    (Named e case → Usable limit e → parseEntry limit cases m e (outName case) = some ⟨e.raw, false⟩) ∧
    ((Named e case → ¬ TooLarge limit e ∧ ¬ Usable limit e) →
      parseEntry limit cases m e (outName case) = m (outName case)) := by
  refine ⟨?_, ?_, ?_⟩
  · intro hn hl
    obtain ⟨ha, hb⟩ := (named_iff e case).1 hn
    unfold parseEntry
    rw [if_neg (by simpa using ha), if_neg (by rw [hb]; simpa using ⟨case, hc, rfl⟩),
      if_pos ((uint64_nonneg h0 h1 _).2 hl), hb]
    simp [Files.put]
  · intro hn hu
    obtain ⟨ha, hb⟩ := (named_iff e case).1 hn
    unfold parseEntry
    rw [if_neg (by simpa using ha), if_neg (by rw [hb]; simpa using ⟨case, hc, rfl⟩),
      if_neg (by rw [uint64_nonneg h0 h1]; have := hu.1; omega), usable_read hu, hb]
    simp [Files.put]
  · intro hn
    unfold parseEntry
    split
    · rfl
    · rename_i ha
      split
      · rfl
      · by_cases hb : baseName e.name = outName case
        · obtain ⟨hl, hu⟩ := hn ((named_iff e case).2 ⟨not_not.1 ha, hb⟩)
          rw [if_neg (by rw [uint64_nonneg h0 h1]; exact hl)]
          cases hr : e.read with
          | none => rfl
          | some d => exact absurd (read_usable hl hr).1 hu
        · have : outName case ≠ baseName e.name := fun h => hb h.symm
          split
          · simp [Files.put, this]
          · cases e.read with
            | none => rfl
            | some d => simp [Files.put, this]

theorem foldl_keep {limit : Int} (h0 : 0 ≤ limit) (h1 : limit < 2 ^ 63) {cases : List (List Char)} {case : List Char}
    (hc : case ∈ cases) (es : List Entry) (m : Files)
    (h : ∀ x ∈ es, Named x case → ¬ TooLarge limit x ∧ ¬ Usable limit x) :
    es.foldl (parseEntry limit cases) m (outName case) = m (outName case) := by
  induction es generalizing m with
  | nil => rfl
  | cons e es ih =>
    rw [List.foldl_cons, ih _ (fun x hx => h x (by simp [hx]))]
    exact (parseEntry_at h0 h1 hc m e).2.2 (h e (by simp))

/-- The file for a case, by the specification. -/
theorem parse_spec {limit : Int} (h0 : 0 ≤ limit) (h1 : limit < 2 ^ 63) {cases : List (List Char)} {case : List Char}
    (hc : case ∈ cases) (es : List Entry) :
    (∀ e, Selected limit es case e → TooLarge limit e →
      es.foldl (parseEntry limit cases) (fun _ => none) (outName case) = some ⟨[], true⟩) ∧
    (∀ e, Selected limit es case e → Usable limit e →
      es.foldl (parseEntry limit cases) (fun _ => none) (outName case) = some ⟨e.raw, false⟩) ∧
    (Missing limit es case → es.foldl (parseEntry limit cases) (fun _ => none) (outName case) = none) := by
  refine ⟨?_, ?_, fun h => foldl_keep h0 h1 hc es _ h⟩
  · rintro e ⟨pre, post, rfl, hn, -, hp⟩ hl
    rw [List.foldl_append, List.foldl_cons, foldl_keep h0 h1 hc post _ hp]
    exact (parseEntry_at h0 h1 hc _ e).1 hn hl
  · rintro e ⟨pre, post, rfl, hn, -, hp⟩ hu
    rw [List.foldl_append, List.foldl_cons, foldl_keep h0 h1 hc post _ hp]
    exact (parseEntry_at h0 h1 hc _ e).2.1 hn hu

/-- Every case has a selected file or none. -/
theorem selected_or_missing (limit : Int) (es : List Entry) (case : List Char) :
    Missing limit es case ∨ ∃ e, Selected limit es case e := by
  induction es using List.reverseRecOn with
  | nil => left; intro x hx; cases hx
  | append_singleton es e ih =>
    by_cases h : Named e case → ¬ TooLarge limit e ∧ ¬ Usable limit e
    · rcases ih with ih | ⟨x, pre, post, rfl, h1, h2, h3⟩
      · left
        intro x hx
        rcases List.mem_append.1 hx with hx | hx
        · exact ih x hx
        · rw [List.mem_singleton.1 hx]; exact h
      · right
        refine ⟨x, pre, post ++ [e], by simp, h1, h2, ?_⟩
        intro y hy
        rcases List.mem_append.1 hy with hy | hy
        · exact h3 y hy
        · rw [List.mem_singleton.1 hy]; exact h
    · right
      have hn : Named e case := Classical.byContradiction fun hn => h fun hn' => absurd hn' hn
      refine ⟨e, es, [], by simp, hn, ?_, by simp⟩
      refine Classical.byContradiction fun hcon => h fun _ => ⟨fun a => hcon (Or.inl a), fun a => hcon (Or.inr a)⟩

/-- The run loop never gets over a limit that is not negative. -/
theorem runCases_cat (p : Problem) (hcat : p.cat = true) (hw : 0 ≤ p.wallLimit) (s : RunState) (hs : s.wallTime = 0)
    (cs : List Case) :
    (runCases p s cs).1.wallTime = 0 ∧
    ∀ x ∈ (runCases p s cs).2, x.2.verdict = (match x.1.catFile with
      | some ole => if ole then Verdict.OLE else .OK
      | none => .RTE) := by
  induction cs generalizing s with
  | nil => exact ⟨hs, by simp [runCases]⟩
  | cons c cs ih =>
    have he : (execCase p s.wallTime c).1.wallTime = 0 ∧ (execCase p s.wallTime c).1.verdict =
        (match c.catFile with | some ole => if ole then Verdict.OLE else .OK | none => .RTE) := by
      unfold execCase
      rw [hs, if_neg (not_lt.2 hw), if_pos hcat]
      cases c.catFile with
      | none => exact ⟨rfl, rfl⟩
      | some o => exact ⟨rfl, rfl⟩
    have hw1 : (runCase p s c).1.wallTime = 0 := by
      show fadd s.wallTime (execCase p s.wallTime c).1.wallTime = 0
      rw [he.1, hs]
      decide +kernel
    obtain ⟨i1, i2⟩ := ih _ hw1
    simp only [runCases]
    refine ⟨i1, ?_⟩
    intro x hx
    rcases List.mem_cons.1 hx with rfl | hx
    · exact he.2
    · exact i2 x hx

/-- The results of an output-only run, case by case. -/
theorem cat_cases (env : Env) (p : Problem) (hc : Compiles p) (hcat : p.cat = true) (hw : 0 ≤ p.wallLimit) :
    (grade env p).cases.length = (p.groups.flatMap Group.cases).length ∧
    ∀ (i : Nat) c r, (p.groups.flatMap Group.cases)[i]? = some c → (grade env p).cases[i]? = some r →
      ∃ r0, r = fin env p (c, r0) ∧ Fresh p (c, r0) ∧ r0.verdict = (match c.catFile with
        | some ole => if ole then Verdict.OLE else .OK
        | none => .RTE) := by
  have hcc := compileAll_ok _ hc.2
  obtain ⟨ys, hys, hf, hm, hg, -⟩ := grade_ok env p hc.1 hcc
  obtain ⟨f1, f2⟩ := runGroups_flat p { events := (compileAll p.compiles).1 } p.groups
  obtain ⟨-, hv⟩ := runCases_cat p hcat hw { events := (compileAll p.compiles).1 } rfl (p.groups.flatMap Group.cases)
  have hfst := runCases_fst p { events := (compileAll p.compiles).1 } (p.groups.flatMap Group.cases)
  have hfx := runCases_fresh p { events := (compileAll p.compiles).1 } (p.groups.flatMap Group.cases)
  generalize (runCases p { events := (compileAll p.compiles).1 } (p.groups.flatMap Group.cases)).2 = xs at *
  have hrs : (grade env p).cases = xs.map (fin env p) := by
    unfold RunResult.cases
    rw [hg, ← f2, ← hys, List.flatMap_map, List.map_flatMap]
    rfl
  rw [hrs]
  refine ⟨by rw [← hfst]; simp, ?_⟩
  intro i c r h1 h2
  rw [List.getElem?_map] at h2
  cases hx : xs[i]? with
  | none => rw [hx] at h2; cases h2
  | some x =>
    rw [hx] at h2
    simp only [Option.map_some, Option.some.injEq] at h2
    have hxm : x ∈ xs := List.mem_of_getElem? hx
    have hxc : x.1 = c := by
      rw [← hfst, List.getElem?_map, hx] at h1
      simpa using h1
    obtain ⟨xc, xr⟩ := x
    simp only at hxc
    subst hxc
    exact ⟨xr, h2.symm, hfx _ hxm, hv _ hxm⟩


theorem fill_flat (files : Files) (gs : List Group) :
    (gs.map (fillGroup files)).flatMap Group.cases = (gs.flatMap Group.cases).map (fillCase files) := by
  induction gs with
  | nil => rfl
  | cons g gs ih => simp only [List.map_cons, List.flatMap_cons, ih, List.map_append]; rfl

theorem fill_weight (files : Files) (c : Case) : (fillCase files c).weight = c.weight ∧
    (fillCase files c).name = c.name ∧ (fillCase files c).expectedOut = c.expectedOut ∧
    (fillCase files c).readsE = c.readsE ∧ (fillCase files c).readsC = c.readsC := by
  unfold fillCase
  split <;> exact ⟨rfl, rfl, rfl, rfl, rfl⟩

/-- The problem graded, when the submission can be read. -/
theorem submit_ok {p : Problem} {limit : Int} {src : Source} {files : Files}
    (h : parse limit (caseNames p) src = some files) :
    submit p limit src = { p with cat := true, setup := .ok, groups := p.groups.map (fillGroup files) } := by
  unfold submit; rw [h]

/-- The result of one case, from the file found for it. -/
theorem case_result (env : Env) (p : Problem) (limit : Int) (src : Source) (files : Files)
    (hp : parse limit (caseNames p) src = some files)
    (hcomp : ∀ b ∈ p.compiles, b.err = false ∧ b.verdict = .OK) (hw : 0 ≤ p.wallLimit) :
    (grade env (submit p limit src)).cases.length = (p.groups.flatMap Group.cases).length ∧
    ∀ (i : Nat) c r, (p.groups.flatMap Group.cases)[i]? = some c →
      (grade env (submit p limit src)).cases[i]? = some r →
      r.name = c.name ∧
      (∀ f, files (outName c.name.toList) = some f → f.ole = true → r.verdict = .OLE ∧ r.score = 0) ∧
      (files (outName c.name.toList) = none → r.verdict = .RTE ∧ r.score = 0) ∧
      (∀ f e, files (outName c.name.toList) = some f → f.ole = false → p.validator.name ≠ "custom" →
        c.expectedOut = some e →
        r.score = caseScore env p c e f.contents ∧ r.verdict = scoreVerdict r.score) := by
  rw [submit_ok hp]
  obtain ⟨h1, h2⟩ := cat_cases env
    { p with cat := true, setup := .ok, groups := p.groups.map (fillGroup files) } ⟨rfl, hcomp⟩ rfl hw
  simp only [fill_flat] at h1 h2
  refine ⟨by simpa using h1, ?_⟩
  intro i c r hc hr
  obtain ⟨r0, rfl, hf, hv⟩ := h2 i (fillCase files c) r (by rw [List.getElem?_map, hc]; rfl) hr
  obtain ⟨w1, w2, w3, w4, w5⟩ := fill_weight files c
  obtain ⟨s1, -, -, -, -, -, s2, s3⟩ := fin_spec env _ _ hf
  refine ⟨s1.trans w2, ?_, ?_, ?_⟩
  · intro f hfile hole
    have : (fillCase files c).catFile = some true := by unfold fillCase; rw [hfile]; exact congrArg some hole
    rw [this] at hv
    have hv' : r0.verdict = .OLE := hv
    obtain ⟨a, b⟩ := s2 (by rw [hv']; decide)
    exact ⟨a.trans hv', b⟩
  · intro hfile
    have : (fillCase files c).catFile = none := by unfold fillCase; rw [hfile]
    rw [this] at hv
    have hv' : r0.verdict = .RTE := hv
    obtain ⟨a, b⟩ := s2 (by rw [hv']; decide)
    exact ⟨a.trans hv', b⟩
  · intro f e hfile hole hval he
    have hcat : (fillCase files c).catFile = some false := by unfold fillCase; rw [hfile]; exact congrArg some hole
    have hout : (fillCase files c).contestantOut = some f.contents := by unfold fillCase; rw [hfile]
    rw [hcat] at hv
    have hv' : r0.verdict = .OK := hv
    have h0 : r0.score = 0 := hf.2.1
    have hcs : caseScore env { p with cat := true, setup := .ok, groups := p.groups.map (fillGroup files) }
        (fillCase files c) e f.contents = caseScore env p c e f.contents := by
      unfold caseScore; rw [w4, w5]
    have hcmp : comparedFiles { p with cat := true, setup := .ok, groups := p.groups.map (fillGroup files) }
        (fillCase files c) = (some f.contents, some e) := by
      unfold comparedFiles
      rw [if_neg hval, hout, w3, he]
    unfold fin validateCase
    simp only [hv', if_true, hcmp, hcs]
    generalize caseScore env p c e f.contents = q
    unfold scoreVerdict
    by_cases hq : q = 1
    · simp [hq, h0]
    · by_cases hq' : q = 0 <;> simp [hq, hq', h0]

/-! ## C61 -/

/-- C61: from an archive, a case is judged by the last member whose path ends in the case's name plus `.out` and that is
too large or readable. Too large: OLE and no score, whatever it contains. Readable: the score and verdict are those of
its contents, which are within the limit. No such member: RTE and no score. -/
theorem C61_archive (env : Env) (p : Problem) (limit : Int) (es : List Entry)
    (hcomp : ∀ b ∈ p.compiles, b.err = false ∧ b.verdict = .OK) (hw : 0 ≤ p.wallLimit)
    (h0 : 0 ≤ limit) (h1 : limit < 2 ^ 63) :
    (grade env (submit p limit (.archive es))).cases.length = (p.groups.flatMap Group.cases).length ∧
    ∀ (i : Nat) c r, (p.groups.flatMap Group.cases)[i]? = some c →
      (grade env (submit p limit (.archive es))).cases[i]? = some r →
      r.name = c.name ∧
      (∀ e, Selected limit es c.name.toList e → TooLarge limit e → r.verdict = .OLE ∧ r.score = 0) ∧
      (Missing limit es c.name.toList → r.verdict = .RTE ∧ r.score = 0) ∧
      (∀ e expected, Selected limit es c.name.toList e → Usable limit e → p.validator.name ≠ "custom" →
        c.expectedOut = some expected →
        (e.raw.length : Int) ≤ limit ∧
        r.score = caseScore env p c expected e.raw ∧ r.verdict = scoreVerdict r.score) := by
  obtain ⟨a, b⟩ := case_result env p limit (.archive es) _ rfl hcomp hw
  refine ⟨a, ?_⟩
  intro i c r hc hr
  obtain ⟨b1, b2, b3, b4⟩ := b i c r hc hr
  have hmem : c.name.toList ∈ caseNames p := List.mem_map.2 ⟨c, List.mem_of_getElem? hc, rfl⟩
  obtain ⟨p1, p2, p3⟩ := parse_spec h0 h1 hmem es
  refine ⟨b1, ?_, ?_, ?_⟩
  · intro e hs hl; exact b2 _ (p1 e hs hl) rfl
  · intro hm; exact b3 (p3 hm)
  · intro e x hs hu hv hx
    obtain ⟨c1, c2⟩ := b4 _ x (p2 e hs hu) rfl hv hx
    refine ⟨?_, c1, c2⟩
    have := hu.1; have := hu.2.2.2; omega

/-- Every case is in one of the three situations. -/
theorem C61_cover (limit : Int) (es : List Entry) (case : List Char) :
    Missing limit es case ∨ ∃ e, Selected limit es case e ∧ (TooLarge limit e ∨ Usable limit e) := by
  rcases selected_or_missing limit es case with h | ⟨e, h⟩
  · exact Or.inl h
  · exact Or.inr ⟨e, h, by obtain ⟨_, _, _, _, h, _⟩ := h; exact h⟩

/-- C61: members that are not named after a case of the problem have no effect at all, wherever they are in the
archive. -/
theorem C61_only_expected (env : Env) (p : Problem) (limit : Int) (pre post : List Entry) (e : Entry)
    (h : ∀ c ∈ p.groups.flatMap Group.cases, ¬ Named e c.name.toList) :
    grade env (submit p limit (.archive (pre ++ e :: post))) = grade env (submit p limit (.archive (pre ++ post))) := by
  have key : ∀ m, parseEntry limit (caseNames p) m e = m := by
    intro m
    unfold parseEntry
    split
    · rfl
    · rename_i ha
      split
      · rfl
      · rename_i hb
        obtain ⟨n, hn, hb⟩ := List.mem_map.1 (not_not.1 hb)
        obtain ⟨c, hc, rfl⟩ := List.mem_map.1 hn
        exact absurd ((named_iff e _).2 ⟨not_not.1 ha, hb.symm⟩) (h c hc)
  have : parse limit (caseNames p) (.archive (pre ++ e :: post)) = parse limit (caseNames p) (.archive (pre ++ post)) := by
    simp only [parse, List.foldl_append, List.foldl_cons, key]
  unfold submit
  rw [this]

/-- A case whose name contains a slash never finds its file. -/
theorem C61_slash (limit : Int) (es : List Entry) (case : List Char) (h : '/' ∈ case) : Missing limit es case :=
  fun _ _ hn => absurd h hn.1

/-- C61: a data URL that is not a zip archive is a compile error: no case, no score, nothing executed. -/
theorem C61_unreadable (env : Env) (p : Problem) (limit : Int) :
    (grade env (submit p limit .notZip)).verdict = .CE ∧ (grade env (submit p limit .notZip)).score = 0 ∧
    (grade env (submit p limit .notZip)).cases = [] ∧ (grade env (submit p limit .notZip)).events = [] := by
  refine ⟨rfl, rfl, rfl, rfl⟩

/-- An output-only submission executes nothing. -/
theorem C61_nothing_executed (env : Env) (p : Problem) (limit : Int) (src : Source) :
    (grade env (submit p limit src)).events.filter Event.isExec = [] := by
  have key : ∀ q : Problem, q.cat = true → (grade env q).events.filter Event.isExec = [] := by
    intro q hq
    have hrun : ∀ (s : RunState) (cs : List Case), (runCases q s cs).1.events = s.events := by
      intro s cs
      induction cs generalizing s with
      | nil => rfl
      | cons c cs ih =>
        simp only [runCases]
        rw [ih]
        show s.events ++ (execCase q s.wallTime c).2 = s.events
        have : (execCase q s.wallTime c).2 = [] := by
          unfold execCase
          rw [if_pos hq]
          split
          · rfl
          · split <;> rfl
        rw [this, List.append_nil]
    unfold grade
    cases q.setup with
    | ioError => rfl
    | unsupportedLanguage => rfl
    | ok =>
      simp only
      split
      · exact compileAll_events _
      · simp only
        rw [validateGroups_events, (runGroups_flat q _ _).1, hrun]
        exact compileAll_events _
  apply key
  unfold submit
  split <;> rfl

/-- Plain text (not a data URL) is the output for the case called `Main`, and for no other. No limit applies to it. -/
theorem C61_plain (env : Env) (p : Problem) (limit : Int) (data : List UInt8)
    (hcomp : ∀ b ∈ p.compiles, b.err = false ∧ b.verdict = .OK) (hw : 0 ≤ p.wallLimit) :
    ∀ (i : Nat) c r, (p.groups.flatMap Group.cases)[i]? = some c →
      (grade env (submit p limit (.plain data))).cases[i]? = some r →
      (c.name ≠ "Main" → r.verdict = .RTE ∧ r.score = 0) ∧
      (∀ expected, c.name = "Main" → p.validator.name ≠ "custom" → c.expectedOut = some expected →
        r.score = caseScore env p c expected data ∧ r.verdict = scoreVerdict r.score) := by
  obtain ⟨-, b⟩ := case_result env p limit (.plain data) _ rfl hcomp hw
  intro i c r hc hr
  obtain ⟨-, -, b3, b4⟩ := b i c r hc hr
  have hM : ∀ n : List Char, outName n = ['M', 'a', 'i', 'n', '.', 'o', 'u', 't'] ↔ n = "Main".toList := by
    intro n
    have : (['M', 'a', 'i', 'n', '.', 'o', 'u', 't'] : List Char) = outName "Main".toList := by decide
    rw [this, outName_inj]
  constructor
  · intro hn
    apply b3
    have : outName c.name.toList ≠ ['M', 'a', 'i', 'n', '.', 'o', 'u', 't'] := by
      rw [Ne, hM]; intro h; exact hn (String.toList_inj.1 h)
    simp [Files.put, this]
  · intro x hn hv hx
    refine b4 ⟨data, false⟩ x ?_ rfl hv hx
    have : outName c.name.toList = ['M', 'a', 'i', 'n', '.', 'o', 'u', 't'] := (hM _).2 (by rw [hn])
    simp [Files.put, this]

/-! ### An example -/

def sampleProblem : Problem :=
  { maxScore := 100, wallLimit := 60, compiles := [], validator := ⟨"token", none⟩
    groups := [{ name := "a", cases := [
      { name := "a", weight := 1, procs := [], contestantOut := none, expectedOut := some [49] },
      { name := "b", weight := 1, procs := [], contestantOut := none, expectedOut := some [49] },
      { name := "c", weight := 1, procs := [], contestantOut := none, expectedOut := some [49] },
      { name := "Main", weight := 1, procs := [], contestantOut := none, expectedOut := some [49] }] }] }

/-- a right answer in a directory, replacing a wrong one; a file over the limit of 2 bytes; one with a lying size; a
file that is no case's; an unreadable one -/
def sampleEntries : List Entry :=
  [⟨"a.out".toList, 1, true, [50], true⟩, ⟨"x/y/a.out".toList, 1, true, [49], true⟩,
   ⟨"a.out".toList, 1, false, [], true⟩, ⟨"b.out".toList, 3, true, [49, 10, 10], true⟩,
   ⟨"c.out".toList, 1, true, [49, 10, 10], true⟩, ⟨"d.out".toList, 1, true, [49], true⟩,
   ⟨"Main.out/".toList, 0, true, [], true⟩]

-- a: the member in the directory counts, the broken one after it does not; b: too large; c: its size is a lie, so it
-- does not count; Main: a directory is no file
example : (grade sampleEnv (submit sampleProblem 2 (.archive sampleEntries))).cases.map CaseResult.verdict =
    [.AC, .OLE, .RTE, .RTE] ∧
    (grade sampleEnv (submit sampleProblem 2 (.archive sampleEntries))).cases.map CaseResult.score = [1, 0, 0, 0] := by
  decide +kernel

example : Selected 2 sampleEntries "a".toList ⟨"x/y/a.out".toList, 1, true, [49], true⟩ ∧
    Usable 2 ⟨"x/y/a.out".toList, 1, true, [49], true⟩ := by
  refine ⟨⟨sampleEntries.take 1, sampleEntries.drop 2, by decide, ⟨by decide, Or.inr ⟨"x/y".toList, by decide⟩⟩,
    Or.inr ⟨by decide, rfl, rfl, rfl⟩, ?_⟩, by decide, rfl, rfl, rfl⟩
  intro x hx hn
  have hb := ((named_iff x _).1 hn).2
  simp only [sampleEntries, List.drop_succ_cons, List.drop_zero, List.mem_cons, List.not_mem_nil, or_false] at hx
  rcases hx with rfl | rfl | rfl | rfl | rfl
  · exact ⟨by simp [TooLarge], by simp [Usable]⟩
  all_goals exact absurd hb (by decide)

/-- Plain text larger than the limit is accepted: the limit does not apply to it. -/
theorem C61_plain_unlimited :
    (grade sampleEnv (submit sampleProblem 2 (.plain [49, 10, 10, 10]))).cases.map CaseResult.verdict =
      [.RTE, .RTE, .RTE, .AC] := by decide +kernel

/-- A negative output limit is no limit: the conversion to an unsigned number makes it huge. -/
theorem C61_negative_limit (limit : Int) (hl : limit < 0) (hl' : -2 ^ 63 ≤ limit) (cases : List (List Char)) (m : Files)
    (e : Entry) (hs : e.size < 2 ^ 63) (case : List Char) (hc : case ∈ cases) (hn : Named e case) (d : List UInt8)
    (hr : e.read = some d) : parseEntry limit cases m e (outName case) = some ⟨d, false⟩ := by
  obtain ⟨ha, hb⟩ := (named_iff e case).1 hn
  have hu : ¬ uint64 limit < e.size := by
    unfold uint64
    have : limit % 2 ^ 64 = limit + 2 ^ 64 := by
      rw [← Int.add_emod_right, Int.emod_eq_of_lt] <;> omega
    rw [this]; omega
  unfold parseEntry
  rw [if_neg (by simpa using ha), if_neg (by rw [hb]; simpa using ⟨case, hc, rfl⟩), if_neg hu, hr, hb]
  simp [Files.put]

/-- Its hypotheses hold of an output of three bytes under a limit of -1. -/
example : parseEntry (-1) ["a".toList] (fun _ => none) ⟨"x/a.out".toList, 3, true, [49, 10, 10], true⟩ (outName "a".toList) =
    some ⟨[49, 10, 10], false⟩ :=
  C61_negative_limit (-1) (by decide) (by decide) _ _ _ (by decide) "a".toList (by simp)
    ⟨by decide, Or.inr ⟨"x".toList, by decide⟩⟩ _ rfl

end Quark.OutputOnly
