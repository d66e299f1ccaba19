import Verif.ClockSync.Model
import Mathlib.Data.List.Induction

/-!
# C174: the clocks in the trace of a run can be matched
-/
namespace Quark.ClockSync

theorem steps_append (s : State) (a b : List Act) : steps s (a ++ b) = (steps s a).bind (steps · b) := by
  induction a generalizing s with
  | nil => rfl
  | cons x a ih =>
    simp only [List.cons_append, steps]
    cases step s x with
    | none => rfl
    | some s' => simp [ih]

/-- The id a runner got is the one that was issued, and it comes back unchanged. -/
theorem carried_eq {n : Nat} (h : n ≤ 2 ^ 53) : carried n = some n := by
  have hd := Access.decimal_digits n
  have hv : Access.value (Access.decimal n) = n := Access.stands_value (Access.decimal_stands n)
  have hall : (Access.decimal n).all Access.isDigit = true := by
    rw [List.all_eq_true]
    intro c hc
    have hk : ∀ c ∈ "0123456789".toList, Access.isDigit c = true := by decide
    exact hk c (hd.2 c hc)
  unfold carried parseUint
  rw [if_pos ⟨hd.1, hall⟩, hv, if_pos (lt_of_le_of_lt h (by norm_num))]
  rw [Option.map_some, Tracing.roundQ_nat h, Tracing.toUint64_nat]

/-- A hand-out that has an id. -/
def HandOut.hasId (o : HandOut) : Prop := o.pc ≠ .taken

structure Inv (s : State) : Prop where
  range : ∀ (k : Nat) (o : HandOut), s.handOuts[k]? = some o → o.hasId → o.id ≤ s.counter
  distinct : ∀ (i j : Nat) (o p : HandOut), s.handOuts[i]? = some o → s.handOuts[j]? = some p → o.hasId → p.hasId →
    o.id = p.id → i = j
  uploaded : ∀ (k : Nat) (o : HandOut), s.handOuts[k]? = some o → o.uploaded = true → o.pc = .sent ∨ o.pc = .recorded
  issuer : ∀ r x, Ev.issuer x ∈ s.trace r ↔
    ∃ (k : Nat) (o : HandOut), s.handOuts[k]? = some o ∧ o.run = r ∧ o.id = x ∧ o.pc = .recorded
  receiver : ∀ r x, Ev.receiver x ∈ s.trace r ↔
    ∃ (k : Nat) (o : HandOut), s.handOuts[k]? = some o ∧ o.run = r ∧ o.id = x ∧ o.uploaded = true
  once : ∀ r, (s.trace r).Nodup
  file : ∀ r l, s.file r = some l → l <+: s.trace r

/-- Changing one hand-out changes what the others say in the evident way. -/
theorem exists_set {l : List HandOut} {h : Nat} {o o' : HandOut} (hq : l[h]? = some o) (P : HandOut → Prop) :
    (∃ (k : Nat) (q : HandOut), (l.set h o')[k]? = some q ∧ P q) ↔
      P o' ∨ ∃ (k : Nat) (q : HandOut), l[k]? = some q ∧ k ≠ h ∧ P q := by
  have hlt := (List.getElem?_eq_some_iff.mp hq).1
  constructor
  · rintro ⟨k, q, hk, hp⟩
    by_cases e : h = k
    · subst e
      rw [List.getElem?_set_self hlt] at hk
      cases hk
      exact .inl hp
    · rw [List.getElem?_set_ne e] at hk
      exact .inr ⟨k, q, hk, Ne.symm e, hp⟩
  · rintro (hp | ⟨k, q, hk, e, hp⟩)
    · exact ⟨h, o', List.getElem?_set_self hlt, hp⟩
    · exact ⟨k, q, by rw [List.getElem?_set_ne (Ne.symm e)]; exact hk, hp⟩

theorem exists_split {l : List HandOut} {h : Nat} {o : HandOut} (hq : l[h]? = some o) (P : HandOut → Prop) :
    (∃ (k : Nat) (q : HandOut), l[k]? = some q ∧ P q) ↔
      P o ∨ ∃ (k : Nat) (q : HandOut), l[k]? = some q ∧ k ≠ h ∧ P q := by
  constructor
  · rintro ⟨k, q, hk, hp⟩
    by_cases e : k = h
    · subst e
      rw [hq] at hk
      cases hk
      exact .inl hp
    · exact .inr ⟨k, q, hk, e, hp⟩
  · rintro (hp | ⟨k, q, hk, e, hp⟩)
    · exact ⟨h, o, hq, hp⟩
    · exact ⟨k, q, hk, hp⟩

theorem get_set {l : List HandOut} {h k : Nat} {o o' q : HandOut} (hq : l[h]? = some o)
    (hk : (l.set h o')[k]? = some q) : (k = h ∧ q = o') ∨ (k ≠ h ∧ l[k]? = some q) := by
  have hlt := (List.getElem?_eq_some_iff.mp hq).1
  by_cases e : h = k
  · subst e
    rw [List.getElem?_set_self hlt] at hk
    cases hk
    exact .inl ⟨rfl, rfl⟩
  · rw [List.getElem?_set_ne e] at hk
    exact .inr ⟨Ne.symm e, hk⟩

/-- A change of one hand-out that keeps its id keeps the ids apart. -/
theorem distinct_set {s : State} (hi : Inv s) {h : Nat} {o o' : HandOut} (hq : s.handOuts[h]? = some o) (hid : o'.id = o.id)
    (hpc : o.hasId) :
    (∀ (k : Nat) (p : HandOut), (s.handOuts.set h o')[k]? = some p → p.hasId → p.id ≤ s.counter) ∧
    (∀ (i j : Nat) (p q : HandOut), (s.handOuts.set h o')[i]? = some p → (s.handOuts.set h o')[j]? = some q →
      p.hasId → q.hasId → p.id = q.id → i = j) := by
  constructor
  · intro k p hk hp
    rcases get_set hq hk with ⟨rfl, rfl⟩ | ⟨-, hk⟩
    · rw [hid]; exact hi.range _ _ hq hpc
    · exact hi.range _ _ hk hp
  · intro i j p q h1 h2 p1 p2 he
    rcases get_set hq h1 with ⟨rfl, rfl⟩ | ⟨n1, g1⟩ <;> rcases get_set hq h2 with ⟨e2, rfl⟩ | ⟨n2, g2⟩
    · exact e2.symm
    · exact hi.distinct _ _ _ _ hq g2 hpc p2 (by rw [← hid]; exact he)
    · subst e2; exact hi.distinct _ _ _ _ g1 hq p1 hpc (by rw [← hid]; exact he)
    · exact hi.distinct _ _ _ _ g1 g2 p1 p2 he

theorem mem_push {t : Nat → List Ev} {r x : Nat} {e f : Ev} : f ∈ push t r e x ↔ f ∈ t x ∨ (x = r ∧ f = e) := by
  unfold push
  by_cases h : x = r
  · rw [if_pos h]; simp [h]
  · rw [if_neg h]; simp [h]

theorem nodup_push {t : Nat → List Ev} {r : Nat} {e : Ev} (hn : ∀ x, (t x).Nodup) (he : e ∉ t r) (x : Nat) :
    (push t r e x).Nodup := by
  unfold push
  by_cases h : x = r
  · rw [if_pos h, h, List.nodup_append]
    exact ⟨hn r, by simp, fun a ha b hb => by rw [List.mem_singleton.mp hb]; rintro rfl; exact he ha⟩
  · rw [if_neg h]; exact hn x

theorem prefix_push {t : Nat → List Ev} {r : Nat} {e : Ev} {x : Nat} {l : List Ev} (h : l <+: t x) : l <+: push t r e x := by
  unfold push
  split
  · exact h.trans (List.prefix_append _ _)
  · exact h

theorem step_inv {s s' : State} {a : Act} (hi : Inv s) (hc : s.counter < 2 ^ 53) (h : step s a = some s') : Inv s' := by
  cases a with
  | take r =>
    cases h
    have get : ∀ (k : Nat) (o : HandOut), (s.handOuts ++ [{ run := r }])[k]? = some o →
        s.handOuts[k]? = some o ∨ o = { run := r } := by
      intro k o hk
      rw [List.getElem?_append] at hk
      split at hk
      · exact .inl hk
      · right
        have := List.mem_of_getElem? hk
        simpa using this
    have ex : ∀ P : HandOut → Prop, ¬ P { run := r } →
        ((∃ (k : Nat) (o : HandOut), (s.handOuts ++ [({ run := r } : HandOut)])[k]? = some o ∧ P o) ↔
          ∃ (k : Nat) (o : HandOut), s.handOuts[k]? = some o ∧ P o) := by
      intro P hP
      constructor
      · rintro ⟨k, o, hk, hp⟩
        rcases get k o hk with hk | rfl
        · exact ⟨k, o, hk, hp⟩
        · exact absurd hp hP
      · rintro ⟨k, o, hk, hp⟩
        refine ⟨k, o, ?_, hp⟩
        rw [List.getElem?_append_left (List.getElem?_eq_some_iff.mp hk).1]
        exact hk
    refine ⟨?_, ?_, ?_, ?_, ?_, hi.once, hi.file⟩
    · intro k o hk ho
      rcases get k o hk with hk | rfl
      · exact hi.range k o hk ho
      · exact absurd rfl ho
    · intro i j o p h1 h2 p1 p2 he
      rcases get i o h1 with h1 | rfl
      · rcases get j p h2 with h2 | rfl
        · exact hi.distinct i j o p h1 h2 p1 p2 he
        · exact absurd rfl p2
      · exact absurd rfl p1
    · intro k o hk ho
      rcases get k o hk with hk | rfl
      · exact hi.uploaded k o hk ho
      · cases ho
    · intro q x
      rw [hi.issuer q x]
      exact (ex (fun o => o.run = q ∧ o.id = x ∧ o.pc = .recorded) (by simp)).symm
    · intro q x
      rw [hi.receiver q x]
      exact (ex (fun o => o.run = q ∧ o.id = x ∧ o.uploaded = true) (by simp)).symm
  | issue n =>
    simp only [step] at h
    cases hq : s.handOuts[n]? with
    | none => rw [hq] at h; cases h
    | some o =>
      rw [hq] at h
      dsimp only at h
      by_cases hp : o.pc = .taken
      · rw [if_pos hp] at h
        cases h
        have hnew : newSyncId s.counter = s.counter + 1 := by
          unfold newSyncId
          exact Nat.mod_eq_of_lt (by omega)
        have hup : o.uploaded = false := by
          cases hu : o.uploaded with
          | false => rfl
          | true => rcases hi.uploaded n o hq hu with h | h <;> rw [hp] at h <;> cases h
        rw [hnew]
        refine ⟨?_, ?_, ?_, ?_, ?_, hi.once, hi.file⟩
        · intro k p hk ho
          rcases get_set hq hk with ⟨rfl, rfl⟩ | ⟨-, hk⟩
          · exact Nat.le_refl _
          · exact Nat.le_succ_of_le (hi.range k p hk ho)
        · intro i j p q h1 h2 p1 p2 he
          rcases get_set hq h1 with ⟨rfl, rfl⟩ | ⟨n1, h1⟩ <;> rcases get_set hq h2 with ⟨e2, rfl⟩ | ⟨n2, h2⟩
          · exact e2.symm
          · have := hi.range j q h2 p2; simp only at he; omega
          · have := hi.range i p h1 p1; simp only at he; omega
          · exact hi.distinct _ _ _ _ h1 h2 p1 p2 he
        · intro k p hk ho
          rcases get_set hq hk with ⟨rfl, rfl⟩ | ⟨-, hk⟩
          · rw [show (_ : HandOut).uploaded = o.uploaded from rfl, hup] at ho; cases ho
          · exact hi.uploaded k p hk ho
        · intro r x
          rw [hi.issuer r x, exists_set hq fun o => o.run = r ∧ o.id = x ∧ o.pc = .recorded,
            exists_split hq fun o => o.run = r ∧ o.id = x ∧ o.pc = .recorded]
          simp [hp]
        · intro r x
          rw [hi.receiver r x, exists_set hq fun o => o.run = r ∧ o.id = x ∧ o.uploaded = true,
            exists_split hq fun o => o.run = r ∧ o.id = x ∧ o.uploaded = true]
          simp [hup]
      · rw [if_neg hp] at h; cases h
  | send n =>
    simp only [step] at h
    cases hq : s.handOuts[n]? with
    | none => rw [hq] at h; cases h
    | some o =>
      rw [hq] at h
      dsimp only at h
      by_cases hp : o.pc = .issued
      · rw [if_pos hp] at h
        cases h
        obtain ⟨d1, d2⟩ := distinct_set hi (o' := { o with pc := .sent }) hq rfl (by unfold HandOut.hasId; rw [hp]; decide)
        refine ⟨d1, d2, ?_, ?_, ?_, hi.once, hi.file⟩
        · intro k p hk ho
          rcases get_set hq hk with ⟨rfl, rfl⟩ | ⟨-, hk⟩
          · exact .inl rfl
          · exact hi.uploaded k p hk ho
        · intro r x
          rw [hi.issuer r x, exists_set hq fun o => o.run = r ∧ o.id = x ∧ o.pc = .recorded,
            exists_split hq fun o => o.run = r ∧ o.id = x ∧ o.pc = .recorded]
          simp [hp]
        · intro r x
          rw [hi.receiver r x, exists_set hq fun o => o.run = r ∧ o.id = x ∧ o.uploaded = true,
            exists_split hq fun o => o.run = r ∧ o.id = x ∧ o.uploaded = true]
      · rw [if_neg hp] at h; cases h
  | record n =>
    simp only [step] at h
    cases hq : s.handOuts[n]? with
    | none => rw [hq] at h; cases h
    | some o =>
      rw [hq] at h
      dsimp only at h
      by_cases hp : o.pc = .sent
      · rw [if_pos hp] at h
        cases h
        have hid : o.hasId := by unfold HandOut.hasId; rw [hp]; decide
        obtain ⟨d1, d2⟩ := distinct_set hi (o' := { o with pc := .recorded }) hq rfl hid
        refine ⟨d1, d2, ?_, ?_, ?_, ?_, fun r l hl => prefix_push (hi.file r l hl)⟩
        · intro k p hk ho
          rcases get_set hq hk with ⟨rfl, rfl⟩ | ⟨-, hk⟩
          · exact .inr rfl
          · exact hi.uploaded k p hk ho
        · intro r x
          dsimp only
          rw [mem_push, hi.issuer r x, exists_set hq fun o => o.run = r ∧ o.id = x ∧ o.pc = .recorded,
            exists_split hq fun o => o.run = r ∧ o.id = x ∧ o.pc = .recorded]
          simp only [hp, Ev.issuer.injEq, and_true, reduceCtorEq, and_false, false_or]
          rw [or_comm, eq_comm (a := r), eq_comm (a := x)]
        · intro r x
          dsimp only
          rw [mem_push, hi.receiver r x, exists_set hq fun o => o.run = r ∧ o.id = x ∧ o.uploaded = true,
            exists_split hq fun o => o.run = r ∧ o.id = x ∧ o.uploaded = true]
          simp
        · refine nodup_push hi.once ?_
          rw [hi.issuer]
          rintro ⟨k, p, hk, -, he, hpc⟩
          have := hi.distinct k n p o hk hq (by unfold HandOut.hasId; rw [hpc]; decide) hid he
          subst this
          rw [hq] at hk
          cases hk
          rw [hp] at hpc; cases hpc
      · rw [if_neg hp] at h; cases h
  | upload n =>
    simp only [step] at h
    cases hq : s.handOuts[n]? with
    | none => rw [hq] at h; cases h
    | some o =>
      rw [hq] at h
      dsimp only at h
      by_cases hp : (o.pc = .sent ∨ o.pc = .recorded) ∧ o.uploaded = false ∧ s.file o.run = none
      · rw [if_pos hp] at h
        obtain ⟨hp, hu, -⟩ := hp
        have hid : o.hasId := by unfold HandOut.hasId; rcases hp with hp | hp <;> rw [hp] <;> decide
        rw [carried_eq (Nat.le_trans (hi.range n o hq hid) (Nat.le_of_lt hc))] at h
        cases h
        obtain ⟨d1, d2⟩ := distinct_set hi (o' := { o with uploaded := true }) hq rfl hid
        refine ⟨d1, d2, ?_, ?_, ?_, ?_, fun r l hl => prefix_push (hi.file r l hl)⟩
        · intro k p hk ho
          rcases get_set hq hk with ⟨rfl, rfl⟩ | ⟨-, hk⟩
          · exact hp
          · exact hi.uploaded k p hk ho
        · intro r x
          dsimp only
          rw [mem_push, hi.issuer r x, exists_set hq fun o => o.run = r ∧ o.id = x ∧ o.pc = .recorded,
            exists_split hq fun o => o.run = r ∧ o.id = x ∧ o.pc = .recorded]
          simp
        · intro r x
          dsimp only
          rw [mem_push, hi.receiver r x, exists_set hq fun o => o.run = r ∧ o.id = x ∧ o.uploaded = true,
            exists_split hq fun o => o.run = r ∧ o.id = x ∧ o.uploaded = true]
          simp only [hu, Ev.receiver.injEq, and_true, Bool.false_eq_true, and_false, false_or]
          rw [or_comm, eq_comm (a := r), eq_comm (a := x)]
        · refine nodup_push hi.once ?_
          rw [hi.receiver]
          rintro ⟨k, p, hk, -, he, hpu⟩
          have hpid : p.hasId := by
            unfold HandOut.hasId; rcases hi.uploaded k p hk hpu with hp | hp <;> rw [hp] <;> decide
          have := hi.distinct k n p o hk hq hpid hid he
          subst this
          rw [hq] at hk
          cases hk
          rw [hu] at hpu; cases hpu
      · rw [if_neg hp] at h; cases h
  | close r =>
    simp only [step] at h
    by_cases hf : s.file r = none
    · rw [if_pos hf] at h
      cases h
      refine ⟨hi.range, hi.distinct, hi.uploaded, hi.issuer, hi.receiver, hi.once, ?_⟩
      intro q l hl
      by_cases e : q = r
      · subst e
        simp only [if_true, Option.some.injEq] at hl
        rw [← hl]
      · simp only [if_neg e] at hl
        exact hi.file q l hl
    · rw [if_neg hf] at h; cases h

/-- Whether an action issues an id. -/
def Act.issues : Act → Bool
  | .issue _ => true
  | _ => false

theorem step_counter {s s' : State} {a : Act} (h : step s a = some s') :
    s'.counter ≤ s.counter + (if a.issues then 1 else 0) := by
  cases a with
  | issue n =>
    simp only [step] at h
    cases hq : s.handOuts[n]? with
    | none => rw [hq] at h; cases h
    | some o =>
      rw [hq] at h
      dsimp only at h
      split at h
      · cases h; exact Nat.mod_le _ _
      · cases h
  | take r => cases h; exact Nat.le_refl _
  | send n =>
    simp only [step] at h
    cases hq : s.handOuts[n]? with
    | none => rw [hq] at h; cases h
    | some o =>
      rw [hq] at h
      dsimp only at h
      split at h
      · cases h; exact Nat.le_refl _
      · cases h
  | record n =>
    simp only [step] at h
    cases hq : s.handOuts[n]? with
    | none => rw [hq] at h; cases h
    | some o =>
      rw [hq] at h
      dsimp only at h
      split at h
      · cases h; exact Nat.le_refl _
      · cases h
  | upload n =>
    simp only [step] at h
    cases hq : s.handOuts[n]? with
    | none => rw [hq] at h; cases h
    | some o =>
      rw [hq] at h
      dsimp only at h
      split at h
      · split at h
        · cases h; exact Nat.le_refl _
        · cases h
      · cases h
  | close r =>
    simp only [step] at h
    split at h
    · cases h; exact Nat.le_refl _
    · cases h

/-- How many ids are issued. -/
def issuedIn (acts : List Act) : Nat := acts.countP Act.issues

theorem reach_inv {seed : Nat} {acts : List Act} {s : State} (hn : seed + issuedIn acts < 2 ^ 53)
    (h : steps (started seed) acts = some s) : Inv s ∧ s.counter ≤ seed + issuedIn acts := by
  induction acts using List.reverseRecOn generalizing s with
  | nil =>
    cases h
    refine ⟨⟨?_, ?_, ?_, ?_, ?_, ?_, ?_⟩, Nat.le_refl _⟩ <;> simp [started]
  | append_singleton l a ih =>
    rw [steps_append] at h
    obtain ⟨s1, h1, h2⟩ := Option.bind_eq_some_iff.mp h
    simp only [steps] at h2
    obtain ⟨s2, h2, h3⟩ := Option.bind_eq_some_iff.mp h2
    cases h3
    have hcount : issuedIn (l ++ [a]) = issuedIn l + (if a.issues then 1 else 0) := by
      unfold issuedIn
      rw [List.countP_append, List.countP_singleton]
    rw [hcount] at hn
    obtain ⟨i1, i2⟩ := ih (by omega) h1
    refine ⟨step_inv i1 (by omega) h2, ?_⟩
    have := step_counter h2
    rw [hcount]
    omega

/-! ## C174 -/

/-- An execution of a grader that has issued fewer than 2⁵³ − 2³² ids since it started. -/
structure Execution (acts : List Act) (s : State) : Prop where
  seed : ∃ c, c < 2 ^ 32 ∧ steps (started c) acts = some s
  few : issuedIn acts < 2 ^ 53 - 2 ^ 32

theorem Execution.inv {acts : List Act} {s : State} (h : Execution acts s) : Inv s := by
  obtain ⟨c, hc, hs⟩ := h.seed
  have := h.few
  exact (reach_inv (by omega) hs).1

/-- **C174** No two hand-outs get the same id, whatever the interleaving. -/
theorem C174_unique {acts : List Act} {s : State} (h : Execution acts s) (i j : Nat) (o p : HandOut)
    (hi : s.handOuts[i]? = some o) (hj : s.handOuts[j]? = some p) (ho : o.pc ≠ .taken) (hp : p.pc ≠ .taken)
    (he : o.id = p.id) : i = j := h.inv.distinct i j o p hi hj ho hp he

/-- **C174** The trace of a run holds, at any time and once each, the ids of the hand-outs of this run whose handler has
recorded them, as the grader's, and the ids of those whose results were received, as the runner's: those that were issued. -/
theorem C174_trace {acts : List Act} {s : State} (h : Execution acts s) (r x : Nat) :
    (Ev.issuer x ∈ s.trace r ↔ ∃ o ∈ s.handOuts, o.run = r ∧ o.id = x ∧ o.pc = .recorded) ∧
    (Ev.receiver x ∈ s.trace r ↔ ∃ o ∈ s.handOuts, o.run = r ∧ o.id = x ∧ o.uploaded = true) ∧
    (s.trace r).Nodup := by
  have key : ∀ P : HandOut → Prop, (∃ (k : Nat) (o : HandOut), s.handOuts[k]? = some o ∧ P o) ↔ ∃ o ∈ s.handOuts, P o := by
    intro P
    constructor
    · rintro ⟨k, o, hk, hp⟩; exact ⟨o, List.mem_of_getElem? hk, hp⟩
    · rintro ⟨o, ho, hp⟩
      obtain ⟨k, hk⟩ := List.mem_iff_getElem?.mp ho
      exact ⟨k, o, hk, hp⟩
  refine ⟨?_, ?_, h.inv.once r⟩
  · rw [h.inv.issuer, key fun o => o.run = r ∧ o.id = x ∧ o.pc = .recorded]
  · rw [h.inv.receiver, key fun o => o.run = r ∧ o.id = x ∧ o.uploaded = true]

/-- **C174** An event of a runner in the trace of a run is matched by the grader's event with the same id in the trace of that run and
in no other, as soon as the handler of the hand-out has recorded it; at most that is outstanding. -/
theorem C174_matched {acts : List Act} {s : State} (h : Execution acts s) (r x : Nat) (hx : Ev.receiver x ∈ s.trace r) :
    (Ev.issuer x ∈ s.trace r ∨ ∃ o ∈ s.handOuts, o.run = r ∧ o.id = x ∧ o.pc = .sent) ∧
    ∀ r', r' ≠ r → Ev.issuer x ∉ s.trace r' ∧ Ev.receiver x ∉ s.trace r' := by
  obtain ⟨k, o, hk, hr, hid, hu⟩ := (h.inv.receiver r x).mp hx
  have ho := h.inv.uploaded k o hk hu
  have hoid : o.hasId := by unfold HandOut.hasId; rcases ho with e | e <;> rw [e] <;> decide
  refine ⟨?_, ?_⟩
  · rcases ho with e | e
    · exact .inr ⟨o, List.mem_of_getElem? hk, hr, hid, e⟩
    · exact .inl ((h.inv.issuer r x).mpr ⟨k, o, hk, hr, hid, e⟩)
  · intro r' hne
    constructor
    · intro hc
      obtain ⟨k', p, hk', hr', hid', hp⟩ := (h.inv.issuer r' x).mp hc
      have := h.inv.distinct k k' o p hk hk' hoid (by unfold HandOut.hasId; rw [hp]; decide) (by rw [hid, hid'])
      subst this
      rw [hk] at hk'
      cases hk'
      exact hne (hr'.symm.trans hr)
    · intro hc
      obtain ⟨k', p, hk', hr', hid', hp⟩ := (h.inv.receiver r' x).mp hc
      have hpid : p.hasId := by
        unfold HandOut.hasId; rcases h.inv.uploaded k' p hk' hp with e | e <;> rw [e] <;> decide
      have := h.inv.distinct k k' o p hk hk' hoid hpid (by rw [hid, hid'])
      subst this
      rw [hk] at hk'
      cases hk'
      exact hne (hr'.symm.trans hr)

theorem file_stays {s s' : State} {r : Nat} {l : List Ev} (acts : List Act) (hf : s.file r = some l)
    (h : steps s acts = some s') : s'.file r = some l := by
  induction acts generalizing s with
  | nil => cases h; exact hf
  | cons a acts ih =>
    simp only [steps] at h
    obtain ⟨s1, h1, h2⟩ := Option.bind_eq_some_iff.mp h
    refine ih ?_ h2
    cases a with
    | take r => cases h1; exact hf
    | close q =>
      simp only [step] at h1
      split at h1
      · rename_i hq
        cases h1
        by_cases e : r = q
        · subst e; rw [hf] at hq; cases hq
        · simp only [if_neg e]; exact hf
      · cases h1
    | issue n =>
      simp only [step] at h1
      cases hq : s.handOuts[n]? with
      | none => rw [hq] at h1; cases h1
      | some o => rw [hq] at h1; dsimp only at h1; split at h1 <;> cases h1; exact hf
    | send n =>
      simp only [step] at h1
      cases hq : s.handOuts[n]? with
      | none => rw [hq] at h1; cases h1
      | some o => rw [hq] at h1; dsimp only at h1; split at h1 <;> cases h1; exact hf
    | record n =>
      simp only [step] at h1
      cases hq : s.handOuts[n]? with
      | none => rw [hq] at h1; cases h1
      | some o => rw [hq] at h1; dsimp only at h1; split at h1 <;> cases h1; exact hf
    | upload n =>
      simp only [step] at h1
      cases hq : s.handOuts[n]? with
      | none => rw [hq] at h1; cases h1
      | some o =>
        rw [hq] at h1; dsimp only at h1
        split at h1
        · split at h1 <;> cases h1; exact hf
        · cases h1

/-- **C174** (partial: the condition). The trace file of a run is the trace at the moment the run is closed. If the handlers of all
hand-outs of the run whose results were received had recorded their events by then, every event of a runner in the file is matched by
one of the grader. -/
theorem C174_file_partial {pre post : List Act} {s1 s : State} {r : Nat} (h1 : Execution pre s1)
    (h : steps s1 (.close r :: post) = some s) :
    s.file r = some (s1.trace r) ∧
    ((∀ o ∈ s1.handOuts, o.run = r → o.uploaded = true → o.pc = .recorded) →
      ∀ x, Ev.receiver x ∈ s1.trace r → Ev.issuer x ∈ s1.trace r) := by
  constructor
  · simp only [steps] at h
    obtain ⟨s2, h2, h3⟩ := Option.bind_eq_some_iff.mp h
    refine file_stays post ?_ h3
    simp only [step] at h2
    split at h2
    · cases h2; simp
    · cases h2
  · intro hall x hx
    obtain ⟨o, ho, hr, hid, hu⟩ := (C174_trace h1 r x).2.1.mp hx
    exact (C174_trace h1 r x).1.mpr ⟨o, ho, hr, hid, hall o ho hr hu⟩

/-- **C174 is false of the code**: the event is recorded after the run was sent, so a fast runner can have its run closed
before; the trace file then has the runner's clock and not the grader's. -/
theorem C174_missing : ∃ (acts : List Act) (s : State), Execution acts s ∧
    s.file 7 = some [.receiver 1001] ∧ s.trace 7 = [.receiver 1001, .issuer 1001] := by
  have h : (steps (started 1000) [.take 7, .issue 0, .send 0, .upload 0, .close 7, .record 0]).map
      (fun s => (s.file 7, s.trace 7)) = some (some [.receiver 1001], [.receiver 1001, .issuer 1001]) := by decide +kernel
  obtain ⟨s, hs, he⟩ := Option.map_eq_some_iff.mp h
  obtain ⟨e1, e2⟩ := Prod.mk.inj he
  exact ⟨_, s, ⟨⟨1000, by norm_num, hs⟩, by decide⟩, e1, e2⟩

/-- Two runs handed out at the same time, one of them twice; all events are there and matched. -/
example : ∃ (pre : List Act) (s : State), Execution (pre ++ [.close 7, .record 2]) s ∧
    s.trace 7 = [.issuer 1001, .receiver 1001, .issuer 1003] ∧ s.trace 8 = [.receiver 1002, .issuer 1002] ∧
    s.file 7 = some [.issuer 1001, .receiver 1001] := by
  have h : (steps (started 1000) ([.take 7, .take 8, .issue 0, .issue 1, .send 1, .send 0, .record 0, .upload 1, .take 7, .upload 0,
      .issue 2, .send 2, .record 1] ++ [.close 7, .record 2])).map (fun s => (s.trace 7, s.trace 8, s.file 7)) =
      some ([.issuer 1001, .receiver 1001, .issuer 1003], [.receiver 1002, .issuer 1002],
        some [.issuer 1001, .receiver 1001]) := by decide +kernel
  obtain ⟨s, hs, he⟩ := Option.map_eq_some_iff.mp h
  obtain ⟨e1, e2⟩ := Prod.mk.inj he
  obtain ⟨e2, e3⟩ := Prod.mk.inj e2
  exact ⟨_, s, ⟨⟨1000, by norm_num, hs⟩, by decide⟩, e1, e2, e3⟩

end Quark.ClockSync
