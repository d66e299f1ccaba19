import Verif.Sandbox.Life

/-!
# Every run is graded as if it were the first: C183

What grading does depends on which names there are, what they hold and which of them share a file, not on how files are
numbered. `D` are the names that matter.
-/

namespace Quark.Sandbox

open Path Spec

/-- Two disks that cannot be told apart by means of the names in `D`. -/
structure Same (D : Str → Prop) (fs fs' : FS) : Prop where
  bound : ∀ p i, fs.ino p = some i → i < fs.next
  bound' : ∀ p i, fs'.ino p = some i → i < fs'.next
  share : ∀ p q, D p → D q → (fs.ino p = fs.ino q ↔ fs'.ino p = fs'.ino q)
  read : ∀ p, D p → fs.read p = fs'.read p

namespace Same

variable {D : Str → Prop} {fs fs' : FS}

theorem none_iff (h : Same D fs fs') {p : Str} (hp : D p) : fs.ino p = none ↔ fs'.ino p = none := by
  rw [← read_eq_none, ← read_eq_none, h.read p hp]

theorem some_iff (h : Same D fs fs') {p q : Str} (hp : D p) (hq : D q) {i i' : Nat} (hi : fs.ino p = some i)
    (hi' : fs'.ino p = some i') : fs.ino q = some i ↔ fs'.ino q = some i' := by
  rw [← hi, ← hi', eq_comm, h.share p q hp hq, eq_comm]

theorem remove (h : Same D fs fs') {p : Str} : Same D (fs.remove p) (fs'.remove p) where
  bound q i hq := by
    unfold FS.remove at hq
    dsimp only at hq
    split at hq
    · cases hq
    · exact h.bound q i hq
  bound' q i hq := by
    unfold FS.remove at hq
    dsimp only at hq
    split at hq
    · cases hq
    · exact h.bound' q i hq
  share q r hq hr := by
    unfold FS.remove
    dsimp only
    by_cases h1 : q = p <;> by_cases h2 : r = p
    · simp [h1, h2]
    · rw [if_pos h1, if_neg h2, if_pos h1, if_neg h2, eq_comm, h.none_iff hr, eq_comm]
    · rw [if_neg h1, if_pos h2, if_neg h1, if_pos h2, h.none_iff hq]
    · rw [if_neg h1, if_neg h2, if_neg h1, if_neg h2]
      exact h.share q r hq hr
  read q hq := by
    rw [read_remove, read_remove, h.read q hq]

theorem set (h : Same D fs fs') {p : Str} (hp : D p) {i i' : Nat} (hi : fs.ino p = some i) (hi' : fs'.ino p = some i')
    (c : Str) : Same D (fs.set i c) (fs'.set i' c) where
  bound := h.bound
  bound' := h.bound'
  share := h.share
  read q hq := by
    have hr := h.read q hq
    have hs := h.some_iff hp hq hi hi'
    unfold FS.read FS.set at *
    dsimp only at *
    cases hq1 : fs.ino q with
    | none =>
      rw [(h.none_iff hq).1 hq1]
      rfl
    | some k =>
      cases hq2 : fs'.ino q with
      | none => rw [(h.none_iff hq).2 hq2] at hq1; cases hq1
      | some k' =>
        rw [hq1, hq2] at hs hr
        simp only [Option.some.injEq] at hs
        simp only [Option.map_some, Option.some.injEq] at hr ⊢
        by_cases hk : k = i
        · rw [if_pos hk, if_pos (hs.1 hk)]
        · rw [if_neg hk, if_neg fun hk' => hk (hs.2 hk')]
          exact hr

theorem link (h : Same D fs fs') {p t : Str} (hp : D p) {i i' : Nat} (hi : fs.ino p = some i)
    (hi' : fs'.ino p = some i') : Same D (fs.link i t) (fs'.link i' t) where
  bound q k hq := by
    unfold FS.link at hq
    dsimp only at hq
    split at hq
    · injection hq with hq
      rw [← hq]; exact h.bound p i hi
    · exact h.bound q k hq
  bound' q k hq := by
    unfold FS.link at hq
    dsimp only at hq
    split at hq
    · injection hq with hq
      rw [← hq]; exact h.bound' p i' hi'
    · exact h.bound' q k hq
  share q r hq hr := by
    unfold FS.link
    dsimp only
    by_cases h1 : q = t <;> by_cases h2 : r = t
    · simp [h1, h2]
    · rw [if_pos h1, if_neg h2, if_pos h1, if_neg h2, eq_comm, h.some_iff hp hr hi hi', eq_comm]
    · rw [if_neg h1, if_pos h2, if_neg h1, if_pos h2, h.some_iff hp hq hi hi']
    · rw [if_neg h1, if_neg h2, if_neg h1, if_neg h2]
      exact h.share q r hq hr
  read q hq := by
    have h1 := h.read q hq
    have h2 := h.read p hp
    unfold FS.read FS.link at *
    dsimp only at *
    by_cases hqt : q = t
    · rw [if_pos hqt, if_pos hqt, ← hi, ← hi']
      exact h2
    · rw [if_neg hqt, if_neg hqt]
      exact h1

/-- A name that was created, on both disks. -/
theorem create (h : Same D fs fs') {p : Str} (hp : D p) :
    Same D (fs.create p).1 (fs'.create p).1 ∧ (fs.create p).1.ino p = some (fs.create p).2 ∧
      (fs'.create p).1.ino p = some (fs'.create p).2 := by
  unfold FS.create
  cases hi : fs.ino p with
  | some i =>
    cases hi' : fs'.ino p with
    | none => rw [(h.none_iff hp).2 hi'] at hi; cases hi
    | some i' => exact ⟨h.set hp hi hi' [], hi, hi'⟩
  | none =>
    rw [(h.none_iff hp).1 hi]
    dsimp only
    refine ⟨⟨?_, ?_, ?_, ?_⟩, if_pos rfl, if_pos rfl⟩
    · intro q k hq
      dsimp only at hq ⊢
      split at hq
      · injection hq with hq; omega
      · have := h.bound q k hq; omega
    · intro q k hq
      dsimp only at hq ⊢
      split at hq
      · injection hq with hq; omega
      · have := h.bound' q k hq; omega
    · intro q r hq hr
      dsimp only
      have n1 : ∀ r, fs.ino r ≠ some fs.next := fun r hr => Nat.lt_irrefl _ (h.bound r _ hr)
      have n2 : ∀ r, fs'.ino r ≠ some fs'.next := fun r hr => Nat.lt_irrefl _ (h.bound' r _ hr)
      by_cases h1 : q = p <;> by_cases h2 : r = p
      · simp [h1, h2]
      · rw [if_pos h1, if_neg h2, if_pos h1, if_neg h2]
        exact ⟨fun e => absurd e.symm (n1 r), fun e => absurd e.symm (n2 r)⟩
      · rw [if_neg h1, if_pos h2, if_neg h1, if_pos h2]
        exact ⟨fun e => absurd e (n1 q), fun e => absurd e (n2 q)⟩
      · rw [if_neg h1, if_neg h2, if_neg h1, if_neg h2]
        exact h.share q r hq hr
    · intro q hq
      have hr := h.read q hq
      unfold FS.read at *
      dsimp only at *
      by_cases hqp : q = p
      · rw [if_pos hqp, if_pos hqp]
        simp
      · rw [if_neg hqp, if_neg hqp]
        cases hq1 : fs.ino q with
        | none =>
          rw [(h.none_iff hq).1 hq1]
          rfl
        | some k =>
          cases hq2 : fs'.ino q with
          | none => rw [(h.none_iff hq).2 hq2] at hq1; cases hq1
          | some k' =>
            rw [hq1, hq2] at hr
            have b1 := h.bound q k hq1
            have b2 := h.bound' q k' hq2
            simp only [Option.map_some, Option.some.injEq] at hr ⊢
            rw [if_neg (by omega), if_neg (by omega)]
            exact hr

theorem write (h : Same D fs fs') {p : Str} (hp : D p) (c : Str) : Same D (fs.write p c) (fs'.write p c) := by
  obtain ⟨h1, h2, h3⟩ := h.create hp
  exact h1.set hp h2 h3 c

theorem copyFile (h : Same D fs fs') (env : CopyEnv) {src dst : Str} (hs : D src) (hd : D dst) :
    Same D (copyFile env src dst fs).1 (copyFile env src dst fs').1 ∧
      (copyFile env src dst fs).2 = (copyFile env src dst fs').2 := by
  unfold Sandbox.copyFile
  cases hi : fs.ino src with
  | none =>
    rw [(h.none_iff hs).1 hi]
    exact ⟨h, rfl⟩
  | some i =>
    cases hi' : fs'.ino src with
    | none => rw [(h.none_iff hs).2 hi'] at hi; cases hi
    | some i' =>
      dsimp only
      by_cases h1 : env.link = true ∧ fs.ino dst = none
      · rw [if_pos h1, if_pos ⟨h1.1, (h.none_iff hd).1 h1.2⟩]
        exact ⟨h.link hs hi hi', rfl⟩
      · rw [if_neg h1, if_neg (show ¬ (env.link = true ∧ fs'.ino dst = none) from
          fun h' => h1 ⟨h'.1, (h.none_iff hd).2 h'.2⟩)]
        by_cases h2 : ¬ env.openSrc = true
        · simp only [if_pos h2]; exact ⟨h, trivial⟩
        · simp only [if_neg h2]
          by_cases h3 : ¬ env.createDst = true
          · simp only [if_pos h3]; exact ⟨h, trivial⟩
          · simp only [if_neg h3]
            obtain ⟨c1, c2, c3⟩ := h.create hd
            have hdata : (fs.create dst).1.data i = (fs'.create dst).1.data i' := by
              have k1 : (fs.create dst).1.ino src = some i := by
                unfold FS.create
                cases hx : fs.ino dst with
                | some k => exact hi
                | none =>
                  dsimp only
                  by_cases hsd : src = dst
                  · rw [hsd, hx] at hi; cases hi
                  · rw [if_neg hsd]; exact hi
              have k2 : (fs'.create dst).1.ino src = some i' := by
                unfold FS.create
                cases hx : fs'.ino dst with
                | some k => exact hi'
                | none =>
                  dsimp only
                  by_cases hsd : src = dst
                  · rw [hsd, hx] at hi'; cases hi'
                  · rw [if_neg hsd]; exact hi'
              have := c1.read src hs
              unfold FS.read at this
              rw [k1, k2] at this
              simpa using this
            cases env.failsAfter with
            | none =>
              dsimp only
              rw [hdata]
              exact ⟨c1.set hd c2 c3 _, rfl⟩
            | some n =>
              dsimp only
              rw [hdata]
              exact ⟨c1.set hd c2 c3 _, rfl⟩

theorem place (env : PlaceEnv) : ∀ (l : List (Str × Str)) {fs fs' : FS}, Same D fs fs' → (∀ x ∈ l, D x.1 ∧ D x.2) →
    Same D (place env l fs).1 (place env l fs').1 ∧ (place env l fs).2 = (place env l fs').2
  | [], _, _, h, _ => ⟨h, rfl⟩
  | (src, dst) :: rest, fs, fs', h, hl => by
    unfold Sandbox.place
    dsimp only
    obtain ⟨hs, hd⟩ := hl (src, dst) (by simp)
    have h0 : Same D (if env.remove dst = true then fs.remove dst else fs)
        (if env.remove dst = true then fs'.remove dst else fs') := by
      by_cases hr : env.remove dst = true
      · rw [if_pos hr, if_pos hr]; exact h.remove
      · rw [if_neg hr, if_neg hr]; exact h
    obtain ⟨c1, c2⟩ := h0.copyFile (env.copy dst) hs hd
    rcases hx : Sandbox.copyFile (env.copy dst) src dst (if env.remove dst = true then fs.remove dst else fs) with ⟨f1, e1⟩
    rcases hy : Sandbox.copyFile (env.copy dst) src dst (if env.remove dst = true then fs'.remove dst else fs')
      with ⟨f2, e2⟩
    rw [hx, hy] at c1 c2
    dsimp only at c1 c2
    subst c2
    cases e1 with
    | true => exact ⟨c1, rfl⟩
    | false => exact place env rest c1 fun x hx => hl x (by simp [hx])

end Same

/-! ## All names -/

/-- Two disks with the same names for the same files, which hold the same. -/
abbrev Alike : FS → FS → Prop := Same fun _ => True

theorem run_alike (env : PlaceEnv) (o : Outcome) (c : RunCall) {fs fs' : FS} (h : Alike fs fs') :
    Alike (run env o c fs).1 (run env o c fs').1 ∧
      Option.Rel (fun a b => a.params = b.params ∧ Alike a.fs b.fs) (run env o c fs).2 (run env o c fs').2 := by
  obtain ⟨h1, h2⟩ := Same.place env (fileLinks c) h fun _ _ => ⟨trivial, trivial⟩
  unfold run
  rcases hx : place env (fileLinks c) fs with ⟨f, e⟩
  rcases hy : place env (fileLinks c) fs' with ⟨f', e'⟩
  rw [hx, hy] at h1 h2
  dsimp only at h1 h2
  subst h2
  cases e with
  | true => exact ⟨h1, .none⟩
  | false =>
    exact ⟨((h1.write trivial _).write trivial _).write trivial _, .some ⟨rfl, h1⟩⟩

/-- What the calls of the validator find, on two disks. -/
def SameCalls (a b : Str × Option Invocation) : Prop :=
  a.1 = b.1 ∧ Option.Rel (fun x y : Invocation => x.params = y.params ∧ Alike x.fs y.fs) a.2 b.2

theorem validate_alike (j : Job) (lang : Str) : ∀ (vs : List Validated) {fs fs' : FS}, Alike fs fs' →
    Alike (validate j lang vs fs).1 (validate j lang vs fs').1 ∧
      List.Forall₂ SameCalls (validate j lang vs fs).2 (validate j lang vs fs').2
  | [], _, _, h => ⟨h, .nil⟩
  | v :: rest, fs, fs', h => by
    have ho : (fs.ino (join [j.inputPath, c!"cases", v.case ++ c!".out"])).isSome =
        (fs'.ino (join [j.inputPath, c!"cases", v.case ++ c!".out"])).isSome := by
      have hn := h.none_iff (p := join [j.inputPath, c!"cases", v.case ++ c!".out"]) trivial
      cases ha : fs.ino (join [j.inputPath, c!"cases", v.case ++ c!".out"]) <;>
        cases hb : fs'.ino (join [j.inputPath, c!"cases", v.case ++ c!".out"]) <;> rw [ha, hb] at hn <;> simp_all
    unfold validate
    dsimp only
    rw [ho]
    obtain ⟨h1, h2⟩ := run_alike v.env v.outcome
      (validatorCall j lang v.case (fs'.ino (join [j.inputPath, c!"cases", v.case ++ c!".out"])).isSome) h
    obtain ⟨h3, h4⟩ := validate_alike j lang rest h1
    exact ⟨h3, .cons ⟨rfl, h2⟩ h4⟩

theorem execOps_alike : ∀ (steps : List (Op × Bool × CopyEnv)) {fs fs' : FS}, Alike fs fs' →
    Alike (execOps steps fs).1 (execOps steps fs').1 ∧ (execOps steps fs).2 = (execOps steps fs').2
  | [], _, _, h => ⟨h, rfl⟩
  | (op, works, env) :: rest, fs, fs', h => by
    have h0 : Alike (op.exec works env fs).1 (op.exec works env fs').1 ∧
        (op.exec works env fs).2 = (op.exec works env fs').2 := by
      cases op with
      | mkdir p => exact ⟨h, rfl⟩
      | fifo p => exact ⟨h, rfl⟩
      | copy a b => exact h.copyFile env trivial trivial
      | write p c =>
        cases works with
        | true => exact ⟨h.write trivial c, rfl⟩
        | false => exact ⟨h, rfl⟩
    obtain ⟨c1, c2⟩ := h0
    unfold execOps
    rcases hx : op.exec works env fs with ⟨f, e⟩
    rcases hy : op.exec works env fs' with ⟨f', e'⟩
    rw [hx, hy] at c1 c2
    dsimp only at c1 c2
    subst c2
    cases e with
    | true => exact ⟨c1, rfl⟩
    | false => exact execOps_alike rest c1

theorem writes_alike : ∀ (ws : List (Str × Str)) {fs fs' : FS}, Alike fs fs' →
    Alike (ws.foldl (fun fs w => fs.write w.1 w.2) fs) (ws.foldl (fun fs w => fs.write w.1 w.2) fs')
  | [], _, _, h => h
  | w :: ws, _, _, h => writes_alike ws (h.write (p := w.1) trivial w.2)

theorem grading_alike (j : Job) (steps : List (Op × Bool × CopyEnv)) (writes : List (Str × Str)) (vs : List Validated)
    {fs fs' : FS} (h : Alike fs fs') :
    Alike (grading j steps writes vs fs).1 (grading j steps writes vs fs').1 ∧
      List.Forall₂ SameCalls (grading j steps writes vs fs).2 (grading j steps writes vs fs').2 := by
  obtain ⟨h1, h2⟩ := execOps_alike steps h
  unfold grading beforeValidation
  rcases hx : execOps steps fs with ⟨f, e⟩
  rcases hy : execOps steps fs' with ⟨f', e'⟩
  rw [hx, hy] at h1 h2
  dsimp only at h1 h2
  subst h2
  cases e with
  | true => exact ⟨h1, .nil⟩
  | false =>
    have h3 := writes_alike writes h1
    cases hv : j.validator with
    | none => exact ⟨h3, .nil⟩
    | some lang => exact validate_alike j lang vs h3

theorem alike_of_noLinks {fs fs' : FS} (h : NoLinks fs) (h' : NoLinks fs') (hr : ∀ p, fs.read p = fs'.read p) :
    Alike fs fs' where
  bound := h.bound
  bound' := h'.bound
  share p q _ _ := by
    have hn : ∀ p, fs.ino p = none ↔ fs'.ino p = none := fun p => by
      rw [← read_eq_none, ← read_eq_none, hr p]
    constructor
    · intro e
      cases hp : fs.ino p with
      | none => rw [(hn p).1 hp, (hn q).1 (e ▸ hp)]
      | some i => rw [h.own p q i hp (e ▸ hp)]
    · intro e
      cases hp : fs'.ino p with
      | none => rw [(hn p).2 hp, (hn q).2 (e ▸ hp)]
      | some i => rw [h'.own p q i hp (e ▸ hp)]
  read p _ := hr p

/-- **C183** (for a runner that is not killed). Whatever a runner has graded before: a run leaves the same files with the
same contents until its directory is removed, and its validator is called for the same cases, with the same arguments, and
can read the same, as if it were the first run of the runner. -/
theorem C183_as_first_partial (gs : List Graded) (hs : ∀ g ∈ gs, Sound g) {fs : FS} (hl : NoLinks fs)
    (he : ∀ g ∈ gs, ∀ p, Within g.job.root p → fs.read p = none) (pre : List Graded) (g : Graded) (post : List Graded)
    (hgs : gs = pre ++ g :: post) :
    (∀ p, (grading g.job g.steps g.writes g.validated (life pre fs)).1.read p =
      (grading g.job g.steps g.writes g.validated fs).1.read p) ∧
    List.Forall₂ (fun a b : Str × Option Invocation => a.1 = b.1 ∧
        Option.Rel (fun x y : Invocation => x.params = y.params ∧ ∀ p, x.fs.read p = y.fs.read p) a.2 b.2)
      (grading g.job g.steps g.writes g.validated (life pre fs)).2
      (grading g.job g.steps g.writes g.validated fs).2 := by
  have he' : ∀ g ∈ gs, ∀ p, Within g.job.root p → fs.ino p = none := fun g hg p hp => read_eq_none.1 (he g hg p hp)
  obtain ⟨h1, h2⟩ := life_spec pre (fun g hg => hs g (by rw [hgs]; simp [hg])) hl
    (fun g hg => he' g (by rw [hgs]; simp [hg]))
  obtain ⟨h3, h4⟩ := grading_alike g.job g.steps g.writes g.validated (alike_of_noLinks h1 hl h2)
  refine ⟨fun p => h3.read p trivial, h4.imp fun a b hab => ⟨hab.1, ?_⟩⟩
  rcases a with ⟨a1, a2⟩
  rcases b with ⟨b1, b2⟩
  have hab2 := hab.2
  dsimp only at hab2 ⊢
  cases hab2 with
  | none => exact .none
  | some hxy => exact .some ⟨hxy.1, fun p => hxy.2.read p trivial⟩

/-- The second of two runs of the sample is graded as the first, and its validator is called for both cases. -/
example : (∀ p, (grading sampleJob sampleGraded.steps sampleGraded.writes sampleGraded.validated
      (life [sampleGraded] (fsOf sampleFiles))).1.read p =
      (grading sampleJob sampleGraded.steps sampleGraded.writes sampleGraded.validated (fsOf sampleFiles)).1.read p) ∧
    (grading sampleJob sampleGraded.steps sampleGraded.writes sampleGraded.validated
      (life [sampleGraded] (fsOf sampleFiles))).2.length = 2 := by
  have h := C183_as_first_partial [sampleGraded, sampleGraded] (by simpa using sample_sound)
    ⟨sample_fresh.bound, sample_fresh.own⟩ (by
      intro g hg p hp
      rw [read_eq_none]
      simp only [List.mem_cons, List.not_mem_nil, or_false, or_self] at hg
      subst hg
      exact sample_fresh.empty p hp) [sampleGraded] sampleGraded [] rfl
  exact ⟨h.1, h.2.length_eq.trans (by decide +kernel)⟩

end Quark.Sandbox
