import Verif.Persist.Model
import Verif.Files.Props

namespace Quark.Persist

/-- What is used of SHA-1: its hexadecimal form is not empty and has no blanks. -/
def Hex (H : Bytes → Bytes) : Prop := ∀ b, H b ≠ [] ∧ ∀ c ∈ H b, isSpace c = false

/-! ### Reading the small files -/

theorem takeWhile_append_stop {p : Char → Bool} {w rest : Bytes} {x : Char} (hw : ∀ c ∈ w, p c = true)
    (hx : p x = false) : (w ++ x :: rest).takeWhile p = w := by
  induction w with
  | nil => simp [hx]
  | cons c w ih =>
    rw [List.cons_append, List.takeWhile_cons_of_pos (hw c (by simp)), ih (fun c hc => hw c (by simp [hc]))]

theorem firstWord_line {H : Bytes → Bytes} (hH : Hex H) (a rest : Bytes) :
    firstWord (H a ++ ' ' :: rest) = some (H a) := by
  obtain ⟨hne, hsp⟩ := hH a
  have h1 : (H a ++ ' ' :: rest).dropWhile isSpace = H a ++ ' ' :: rest := by
    cases h : H a with
    | nil => exact absurd h hne
    | cons c w =>
      have := hsp c (by simp [h])
      rw [List.cons_append, List.dropWhile_cons_of_neg (by simp [this])]
  unfold firstWord
  rw [h1, takeWhile_append_stop (fun c hc => by simp [hsp c hc]) (by decide)]
  cases h : H a with
  | nil => exact absurd h hne
  | cons c w => rfl

theorem dec_range (n : Nat) : ∀ c ∈ Files.dec n, ('0' ≤ c ∧ c ≤ '9') ∧ c ≠ '\n' := by
  intro c hc
  have h := Files.dec_digits n c hc
  have hle : '0' ≤ c ∧ c ≤ '9' := by
    constructor <;> (rw [Char.le_def, UInt32.le_iff_toNat_le]; change _ ≤ _; simp only [Char.toNat] at h)
    · have : '0'.val.toNat = 48 := rfl
      omega
    · have : '9'.val.toNat = 57 := rfl
      omega
  refine ⟨hle, ?_⟩
  rintro rfl
  revert hle; decide

theorem parse_dec (n : Nat) : parseNat (Files.dec n) = some n := by
  unfold parseNat
  rw [if_pos]
  · exact congrArg some (Files.value_dec n)
  · refine ⟨Files.dec_ne_nil n, ?_⟩
    rw [List.all_eq_true]
    intro c hc
    simpa using (dec_range n c hc).1

theorem length_line (n : Nat) : (firstLine (Files.dec n ++ "\n".toList)).bind parseNat = some n := by
  have h0 : "\n".toList = ['\n'] := by decide
  unfold firstLine
  rw [h0, if_neg (by simp), takeWhile_append_stop]
  · exact parse_dec n
  · intro c hc; simpa using (dec_range n c hc).2
  · simp

theorem length_bare (n : Nat) : (firstLine (Files.dec n)).bind parseNat = some n := by
  unfold firstLine
  rw [if_neg (Files.dec_ne_nil n)]
  have : (Files.dec n).takeWhile (· ≠ '\n') = Files.dec n := by
    rw [List.takeWhile_eq_self_iff]
    intro c hc; simpa using (dec_range n c hc).2
  rw [this]
  exact parse_dec n

/-! ### Running operations -/

theorem Run.eq_of_done {ops : List Op} {d d' : Disk} (h : Run ops d d' true) : d' = ops.foldl Op.apply d := by
  generalize hr : true = r at h
  induction h with
  | done => rfl
  | stop => simp at hr
  | torn => simp at hr
  | step _ ih => exact ih hr

/-- What holds at every point before the last operation is done. -/
theorem Run.inv {P : Disk → Prop} {ops : List Op} {d d' : Disk} (h : Run ops d d' false)
    (hop : ∀ op ∈ ops.dropLast, ∀ d, P d → P (op.apply d))
    (htorn : ∀ f b, Op.append f b ∈ ops → ∀ p, p <+: b → ∀ d, P d → P (Op.apply d (.append f p)))
    (h0 : P d) : P d' := by
  generalize hr : false = r at h
  induction h with
  | done => simp at hr
  | stop => exact h0
  | torn hp => exact htorn _ _ (by simp) _ hp _ h0
  | @step op ops d d' r hrun ih =>
    cases ops with
    | nil => cases hrun; simp at hr
    | cons op' ops =>
      refine ih ?_ ?_ (hop op (by simp) d h0) hr
      · intro o ho; exact hop o (by rw [List.dropLast_cons_cons]; exact List.mem_cons_of_mem _ ho)
      · intro f b hm; exact htorn f b (List.mem_cons_of_mem _ hm)

/-- An accepted disk holds a complete archive with its own size. -/
def Good (H : Bytes → Bytes) (made : Archives) (d : Disk) : Prop :=
  ∀ n, verify H d = some n → ∃ a, made a n ∧ d .archive = some a

theorem verify_none_of {H : Bytes → Bytes} {d : Disk}
    (h : d .archive = none ∨ d .sha1 = none ∨ d .len = none) : verify H d = none := by
  unfold verify
  rcases h with h | h | h
  · rw [h]
  · rw [h]; cases d .archive <;> rfl
  · rw [h]; cases d .archive <;> cases d .sha1 <;> rfl

theorem Good.of_none {H : Bytes → Bytes} {made : Archives} {d : Disk}
    (h : d .archive = none ∨ d .sha1 = none ∨ d .len = none) : Good H made d := by
  intro n hn; rw [verify_none_of h] at hn; exact absurd hn (by simp)

theorem Good.remove {H : Bytes → Bytes} {made : Archives} {d : Disk} (h : Good H made d) (f : File) :
    Good H made (Op.apply d (.remove f)) := by
  cases f with
  | tmp => exact h
  | archive => exact Good.of_none (Or.inl rfl)
  | sha1 => exact Good.of_none (Or.inr (Or.inl rfl))
  | len => exact Good.of_none (Or.inr (Or.inr rfl))

theorem Good.delete {H : Bytes → Bytes} {made : Archives} {d d' : Disk} {r : Bool} (h : Good H made d)
    (hr : Run deleteOps d d' r) : Good H made d' := by
  cases r with
  | true => rw [hr.eq_of_done]; exact Good.of_none (Or.inl rfl)
  | false =>
    refine hr.inv (P := Good H made) ?_ ?_ h
    · intro op hop d hd
      simp only [deleteOps, List.dropLast, List.mem_cons, List.not_mem_nil, or_false] at hop
      rcases hop with rfl | rfl | rfl <;> exact hd.remove _
    · intro f b hm; simp [deleteOps] at hm

theorem deleted {d d' : Disk} (h : Run deleteOps d d' true) : ∀ f, d' f = none := by
  rw [h.eq_of_done]; intro f; cases f <;> rfl

theorem Good.git {H : Bytes → Bytes} (hH : Hex H) {made : Archives} {name a : Bytes} {size : Nat} {d d' : Disk}
    {r : Bool} (hd : ∀ f, d f = none) (hm : made a size) (hr : Run (gitOps H name a size) d d' r) :
    Good H made d' ∧ (r = true → verify H d' = some size ∧ d' .archive = some a) := by
  cases r with
  | false =>
    refine ⟨Good.of_none (Or.inl ?_), by simp⟩
    refine hr.inv (P := fun d => d .archive = none) ?_ ?_ (hd _)
    · intro op hop d h
      simp only [gitOps, List.dropLast, List.mem_cons, List.not_mem_nil, or_false] at hop
      rcases hop with rfl | rfl | rfl | rfl | rfl | rfl <;> exact h
    · intro f b hop p _ d h
      simp only [gitOps, List.mem_cons, Op.append.injEq, reduceCtorEq, List.not_mem_nil, or_false,
        false_or] at hop
      rcases hop with ⟨rfl, _⟩ | ⟨rfl, _⟩ | ⟨rfl, _⟩ <;> exact h
  | true =>
    have h1 : d' .archive = some a := by
      rw [hr.eq_of_done]; rfl
    have h2 : d' .sha1 = some (H a ++ " *".toList ++ name ++ "\n".toList) := by
      rw [hr.eq_of_done]; rfl
    have h3 : d' .len = some (Files.dec size ++ "\n".toList) := by
      rw [hr.eq_of_done]; rfl
    have hstar : " *".toList = [' ', '*'] := by decide
    have hv : verify H d' = some size := by
      unfold verify
      rw [h1, h2, h3]
      dsimp only
      rw [hstar, List.append_assoc, List.append_assoc, List.cons_append, if_pos (firstWord_line hH _ _),
        length_line]
    refine ⟨?_, fun _ => ⟨hv, h1⟩⟩
    intro n hn
    rw [hv] at hn
    cases hn
    exact ⟨a, hm, h1⟩

theorem Good.literal {H : Bytes → Bytes} (hH : Hex H) {made : Archives} {name a : Bytes} {size : Nat}
    {d d' : Disk} {r : Bool} (hd : ∀ f, d f = none) (hm : made a size)
    (hr : Run (literalOps H name a size) d d' r) :
    Good H made d' ∧ (r = true → verify H d' = some size ∧ d' .archive = some a) := by
  -- before the last file is begun it is not there; once it is begun, the others are complete
  have key : ∀ d', d' .archive = some a → d' .len = some (Files.dec size) → Good H made d' := by
    intro d' h1 h2 n hn
    unfold verify at hn
    rw [h1, h2] at hn
    cases hs : d' .sha1 with
    | none => rw [hs] at hn; simp at hn
    | some s =>
      rw [hs] at hn
      dsimp only at hn
      split at hn
      · rw [length_bare] at hn; cases hn; exact ⟨a, hm, h1⟩
      · exact absurd hn (by simp)
  have hinv : ∀ d, (∀ f, d f = none) → ∀ d', Run (literalOps H name a size) d d' r → Good H made d' := by
    intro d hd d' hr
    unfold literalOps at hr
    cases hr with
    | stop => exact Good.of_none (Or.inl (hd _))
    | step hr =>
    cases hr with
    | stop => exact Good.of_none (Or.inr (Or.inl (hd _)))
    | torn _ => exact Good.of_none (Or.inr (Or.inl (hd _)))
    | step hr =>
    cases hr with
    | stop => exact Good.of_none (Or.inr (Or.inl (hd _)))
    | step hr =>
    cases hr with
    | stop => exact Good.of_none (Or.inr (Or.inl (hd _)))
    | torn _ => exact Good.of_none (Or.inr (Or.inl (hd _)))
    | step hr =>
    cases hr with
    | stop => exact key _ rfl rfl
    | step hr =>
    cases hr with
    | stop => exact key _ rfl rfl
    | torn _ => exact key _ rfl rfl
    | step hr =>
    cases hr with
    | done => exact key _ rfl rfl
  refine ⟨hinv d hd d' hr, ?_⟩
  rintro rfl
  have h1 : d' .archive = some a := by rw [hr.eq_of_done]; rfl
  have h2 : d' .sha1 = some (H a ++ " *".toList ++ name ++ ".tar.gz\n".toList) := by rw [hr.eq_of_done]; rfl
  have h3 : d' .len = some (Files.dec size) := by rw [hr.eq_of_done]; rfl
  have hstar : " *".toList = [' ', '*'] := by decide
  refine ⟨?_, h1⟩
  unfold verify
  rw [h1, h2, h3]
  dsimp only
  rw [hstar, List.append_assoc, List.append_assoc, List.cons_append, if_pos (firstWord_line hH _ _), length_bare]

theorem Good.after {H : Bytes → Bytes} {made : Archives} {ops : Bytes → Nat → List Op}
    (hops : ∀ a size d d' r, (∀ f, d f = none) → made a size → Run (ops a size) d d' r → Good H made d')
    {d d' : Disk} (h : Good H made d) (ha : After H made ops d d') : Good H made d' := by
  cases ha with
  | killedDeleting hr => exact h.delete hr
  | persist hd hm hr => exact hops _ _ _ _ _ (deleted hd) hm hr
  | failed hd hm hr => exact (hops _ _ _ _ _ (deleted hd) hm hr).remove _
  | evicted hr => exact h.delete hr

theorem Good.lives {H : Bytes → Bytes} {made : Archives} {ops : Bytes → Nat → List Op}
    (hops : ∀ a size d d' r, (∀ f, d f = none) → made a size → Run (ops a size) d d' r → Good H made d')
    {d d' : Disk} (h : Good H made d) (hl : Lives H made ops d d') : Good H made d' := by
  induction hl with
  | refl => exact h
  | tail _ ha ih => exact ih.after hops ha

/-- The disk of an input that was never stored. -/
def blank : Disk := fun _ => none

/-- **C35.** Whatever happens to an input of the grader that starts out unknown — being persisted, deleted, evicted,
with errors and kills at any point, over any number of lives of the process — if `Verify` then accepts it with size
`n`, the archive is byte for byte one that was generated completely, `n` is that archive's own uncompressed
size, and the stored hash is the archive's own. -/
theorem C35_crash_safe (H : Bytes → Bytes) (hH : Hex H) (made : Archives) (name : Bytes) (d : Disk) (n : Nat)
    (hl : Lives H made (gitOps H name) blank d) (hv : verify H d = some n) :
    ∃ a, made a n ∧ d .archive = some a ∧ ∃ s, d .sha1 = some s ∧ firstWord s = some (H a) := by
  have hg : Good H made d :=
    Good.lives (fun a size d d' r hd hm hr => (Good.git hH hd hm hr).1) (Good.of_none (Or.inl rfl)) hl
  obtain ⟨a, hm, ha⟩ := hg n hv
  refine ⟨a, hm, ha, ?_⟩
  unfold verify at hv
  rw [ha] at hv
  cases hs : d .sha1 with
  | none => rw [hs] at hv; simp at hv
  | some s =>
    rw [hs] at hv
    cases hln : d .len with
    | none => rw [hln] at hv; simp at hv
    | some l =>
      rw [hln] at hv
      dsimp only at hv
      split at hv
      · rename_i hw; exact ⟨s, rfl, hw⟩
      · exact absurd hv (by simp)

/-- **C35** (accepted). An input that was persisted without interruption is accepted, with its size. -/
theorem C35_accepted (H : Bytes → Bytes) (hH : Hex H) (name a : Bytes) (size : Nat) (d d1 d' : Disk)
    (hd : Run deleteOps d d1 true) (hr : Run (gitOps H name a size) d1 d' true) :
    verify H d' = some size ∧ d' .archive = some a :=
  (Good.git (made := fun _ _ => True) hH (deleted hd) trivial hr).2 rfl

/-- **C37** (crash). The same for literal inputs, which are written in place: the hash file is written last. -/
theorem C37_crash_safe (H : Bytes → Bytes) (hH : Hex H) (made : Archives) (name : Bytes) (d : Disk) (n : Nat)
    (hl : Lives H made (literalOps H name) blank d) (hv : verify H d = some n) :
    ∃ a, made a n ∧ d .archive = some a ∧ ∃ s, d .sha1 = some s ∧ firstWord s = some (H a) := by
  have hg : Good H made d :=
    Good.lives (fun a size d d' r hd hm hr => (Good.literal hH hd hm hr).1) (Good.of_none (Or.inl rfl)) hl
  obtain ⟨a, hm, ha⟩ := hg n hv
  refine ⟨a, hm, ha, ?_⟩
  unfold verify at hv
  rw [ha] at hv
  cases hs : d .sha1 with
  | none => rw [hs] at hv; simp at hv
  | some s =>
    rw [hs] at hv
    cases hln : d .len with
    | none => rw [hln] at hv; simp at hv
    | some l =>
      rw [hln] at hv
      dsimp only at hv
      split at hv
      · rename_i hw; exact ⟨s, rfl, hw⟩
      · exact absurd hv (by simp)

/-- **C37** (accepted). A literal input that was persisted without interruption is accepted. -/
theorem C37_accepted (H : Bytes → Bytes) (hH : Hex H) (name a : Bytes) (size : Nat) (d d1 d' : Disk)
    (hd : Run deleteOps d d1 true) (hr : Run (literalOps H name a size) d1 d' true) :
    verify H d' = some size ∧ d' .archive = some a :=
  (Good.literal (made := fun _ _ => True) hH (deleted hd) trivial hr).2 rfl

/-- **C37** (report; partial: full claim false, see `C37_swallowed`). When no write fails, all three files are
written and success is reported; a failure to make the directory is reported. -/
theorem C37_report_partial (mkdir w1 w2 w3 : Bool) :
    (w1 = true → w2 = true → w3 = true →
      ((literalPersist mkdir w1 w2 w3).1 = true ↔ ∀ f, f ≠ .tmp → f ∈ (literalPersist mkdir w1 w2 w3).2)) ∧
    (mkdir = false → (literalPersist mkdir w1 w2 w3).1 = false) := by
  constructor
  · rintro rfl rfl rfl
    cases mkdir
    · simp only [literalPersist, Bool.not_false, if_true, Bool.false_eq_true, List.not_mem_nil, false_iff]
      intro h; exact h .archive (by decide)
    · simp only [literalPersist, Bool.not_true, Bool.false_eq_true, if_false, true_iff]
      intro f hf; cases f <;> simp_all
  · rintro rfl; rfl

/-- **C37 is false as far as failures are concerned**: every failing write is reported as success. -/
theorem C37_swallowed (w1 w2 w3 : Bool) (h : (w1 && w2 && w3) = false) :
    (literalPersist true w1 w2 w3).1 = true ∧ .sha1 ∉ (literalPersist true w1 w2 w3).2 := by
  cases w1 <;> cases w2 <;> cases w3 <;> simp_all [literalPersist]

/-! A hash for examples: not SHA-1, but it has the form that is needed. -/
def exH (b : Bytes) : Bytes := 'h' :: Files.dec b.length

theorem hex_exH : Hex exH := by
  intro b
  refine ⟨by simp [exH], ?_⟩
  intro c hc
  rcases List.mem_cons.1 hc with rfl | hc
  · decide
  · have h := Files.dec_digits _ c hc
    unfold isSpace
    simp only [decide_eq_false_iff_not, not_or]
    refine ⟨?_, ?_, ?_, ?_, ?_, ?_⟩ <;> (rintro rfl; revert h; decide)

/-- An input is persisted, evicted, persisted again and killed in the middle of the length: not accepted; persisted
once more: accepted. -/
def exDisk (n : Nat) : Disk :=
  ((gitOps exH "x".toList "archive".toList 1234).take n).foldl Op.apply blank

example : verify exH (exDisk 5) = none ∧ verify exH (exDisk 6) = none ∧ verify exH (exDisk 7) = some 1234 := by
  decide +kernel

/-- The steps of a program one after the other. -/
theorem run_all (ops : List Op) (d : Disk) : Run ops d (ops.foldl Op.apply d) true := by
  induction ops generalizing d with
  | nil => exact .done
  | cons op ops ih => exact .step (ih _)

example : Lives exH (fun a n => a = "archive".toList ∧ n = 1234) (gitOps exH "x".toList) blank (exDisk 7) :=
  .tail .refl (.persist (d1 := deleteOps.foldl Op.apply blank) (a := "archive".toList) (size := 1234) (r := true)
    (run_all _ _) ⟨rfl, rfl⟩ (by
      have := run_all (gitOps exH "x".toList "archive".toList 1234) (deleteOps.foldl Op.apply blank)
      have hb : deleteOps.foldl Op.apply blank = blank := by funext f; cases f <;> rfl
      rw [hb] at this ⊢
      exact this))

/-! ### The runner -/

theorem RRun.eq_of_done {ops : List ROp} {d d' : RDisk} (h : RRun ops d d' true) : d' = ops.foldl ROp.apply d := by
  generalize hr : true = r at h
  induction h with
  | done => rfl
  | stop => simp at hr
  | torn => simp at hr
  | tornLine => simp at hr
  | tornTmp => simp at hr
  | tornPath => simp at hr
  | step _ ih => exact ih hr

/-- The contents of the file `n` of an archive: its last occurrence, if a name occurs more than once. -/
def fileOf (ms : List (Bytes × Bytes)) (n : Bytes) : Option Bytes := ms.reverse.lookup n

/-- An accepted directory holds every file of a complete archive. -/
def RGood (H : Bytes → Bytes) (ok : Bytes → Bool) (announced : List (Bytes × Bytes) → Prop) (d : RDisk) : Prop :=
  rverify H ok d = true → ∃ ms, announced ms ∧ ∃ dir, d.path = some dir ∧
    ∀ n c, fileOf ms n = some c → dir.get n = some c

theorem rverify_none {H : Bytes → Bytes} {ok : Bytes → Bool} {d : RDisk} (h : d.sha1 = none ∨ d.path = none) :
    rverify H ok d = false := by
  unfold rverify
  rcases h with h | h
  · rw [h]
  · rw [h]; cases d.sha1 <;> rfl

theorem RGood.of_none {H : Bytes → Bytes} {ok : Bytes → Bool} {announced : List (Bytes × Bytes) → Prop} {d : RDisk}
    (h : d.sha1 = none ∨ d.path = none) : RGood H ok announced d := by
  intro hv; rw [rverify_none h] at hv; exact absurd hv (by simp)

theorem RGood.congr {H : Bytes → Bytes} {ok : Bytes → Bool} {announced : List (Bytes × Bytes) → Prop} {d d' : RDisk}
    (h : RGood H ok announced d) (h1 : d'.sha1 = d.sha1) (h2 : d'.path = d.path) : RGood H ok announced d' := by
  intro hv
  rw [h2]
  apply h
  rw [← hv]
  unfold rverify; rw [h1, h2]

theorem RGood.delete {H : Bytes → Bytes} {ok : Bytes → Bool} {announced : List (Bytes × Bytes) → Prop}
    {d d' : RDisk} {r : Bool} (h : RGood H ok announced d) (hr : RRun rdeleteOps d d' r) : RGood H ok announced d' := by
  unfold rdeleteOps at hr
  cases hr with
  | stop => exact h
  | tornTmp => exact h.congr rfl rfl
  | step hr =>
  cases hr with
  | stop => exact h.congr rfl rfl
  | step hr =>
  cases hr with
  | stop => exact RGood.of_none (Or.inl rfl)
  | tornPath => exact RGood.of_none (Or.inl rfl)
  | step hr =>
  cases hr with
  | done => exact RGood.of_none (Or.inl rfl)

theorem rdeleted {d d' : RDisk} (h : RRun rdeleteOps d d' true) : d' = {} := by
  rw [h.eq_of_done]; rfl

/-- Unpacking does not touch the final place. -/
theorem RRun.path_none {ops : List ROp} {d d' : RDisk} {r : Bool} (h : RRun ops d d' r)
    (hops : ∀ op ∈ ops, op ≠ .rename ∧ op ≠ .removePath) (h0 : d.path = none) : d'.path = none := by
  induction h with
  | done => exact h0
  | stop => exact h0
  | torn => exact h0
  | tornLine => exact h0
  | tornTmp => exact h0
  | tornPath => exact absurd rfl (hops _ (by simp)).2
  | @step op ops d d' r _ ih =>
    refine ih (fun o ho => hops o (by simp [ho])) ?_
    have := hops op (by simp)
    cases op <;> first | exact h0 | exact absurd rfl this.1 | exact absurd rfl this.2

theorem memberOps_mem {H : Bytes → Bytes} {ms : List (Bytes × Bytes)} {op : ROp} (h : op ∈ memberOps H ms) :
    op ≠ .rename ∧ op ≠ .removePath := by
  induction ms with
  | nil => simp [memberOps] at h
  | cons m ms ih =>
    obtain ⟨n, c⟩ := m
    simp only [memberOps, List.cons_append, List.nil_append, List.mem_cons] at h
    rcases h with rfl | rfl | rfl | h
    · simp
    · simp
    · simp
    · exact ih h

theorem unpackOps_mem {H : Bytes → Bytes} {ms : List (Bytes × Bytes)} {op : ROp} (h : op ∈ unpackOps H ms) :
    op ≠ .rename ∧ op ≠ .removePath := by
  simp only [unpackOps, List.cons_append, List.nil_append, List.mem_cons] at h
  rcases h with rfl | rfl | h
  · simp
  · simp
  · exact memberOps_mem h

theorem get_put (d : Dir) (n c m : Bytes) : (d.put n c).get m = if m = n then some c else d.get m := by
  unfold Dir.put Dir.get
  rw [List.lookup_cons]
  by_cases h : m = n
  · subst h; simp
  · have : (m == n) = false := by simpa using h
    simp [h, this]

theorem lookup_append (a b : List (Bytes × Bytes)) (n : Bytes) :
    (a ++ b).lookup n = (a.lookup n).or (b.lookup n) := by
  induction a with
  | nil => simp
  | cons x a ih =>
    obtain ⟨k, v⟩ := x
    simp only [List.cons_append, List.lookup_cons]
    split <;> simp [ih]

/-- What has been unpacked when the loop is through. -/
theorem memberOps_done (H : Bytes → Bytes) (ms : List (Bytes × Bytes)) (d : RDisk) (t : Dir) (ls : List Line)
    (ht : d.tmp = some t) (hs : d.sha1 = some ls) :
    ∃ t', ((memberOps H ms).foldl ROp.apply d).tmp = some t' ∧
      ((memberOps H ms).foldl ROp.apply d).sha1 = some (ls ++ ms.map fun m => line m.1 (H m.2)) ∧
      ((memberOps H ms).foldl ROp.apply d).path = d.path ∧
      ∀ n, t'.get n = (fileOf ms n).or (t.get n) := by
  induction ms generalizing d t ls with
  | nil => exact ⟨t, by simp [memberOps, ht, hs, fileOf]⟩
  | cons m ms ih =>
    obtain ⟨n, c⟩ := m
    simp only [memberOps, List.cons_append, List.nil_append, List.foldl_cons]
    obtain ⟨t', h1, h2, h3, h4⟩ := ih
      (ROp.apply (ROp.apply (ROp.apply d (.create n)) (.append n c)) (.addLine (line n (H c))))
      ((t.put n []).put n c) (ls ++ [line n (H c)])
      (by simp [ROp.apply, ht, get_put]) (by simp [ROp.apply, hs])
    refine ⟨t', h1, by rw [h2]; simp, h3, ?_⟩
    intro k
    rw [h4]
    unfold fileOf
    rw [List.reverse_cons, lookup_append, get_put, get_put]
    by_cases hk : k = n
    · subst hk
      cases List.lookup k ms.reverse <;> simp [List.lookup]
    · have : (k == n) = false := by simpa using hk
      cases List.lookup k ms.reverse <;> simp [List.lookup, hk, this]

theorem unpack_done {H : Bytes → Bytes} {ms : List (Bytes × Bytes)} {d d' : RDisk} (hd : d = {})
    (h : RRun (unpackOps H ms) d d' true) :
    ∃ t, d'.tmp = some t ∧ d'.sha1 = some (ms.map fun m => line m.1 (H m.2)) ∧ d'.path = none ∧
      ∀ n, t.get n = fileOf ms n := by
  rw [h.eq_of_done]
  subst hd
  obtain ⟨t', h1, h2, h3, h4⟩ := memberOps_done H ms
    { tmp := some [], sha1 := some [], path := none } [] [] rfl rfl
  rw [List.nil_append] at h2
  refine ⟨t', h1, h2, h3, ?_⟩
  intro n
  rw [h4]
  simp [Dir.get]

theorem RGood.after {H : Bytes → Bytes} {ok : Bytes → Bool} {announced : List (Bytes × Bytes) → Prop} {d d' : RDisk}
    (h : RGood H ok announced d) (ha : RAfter H announced d d') : RGood H ok announced d' := by
  cases ha with
  | killedDeleting hr => exact h.delete hr
  | interrupted hd hr =>
    exact RGood.of_none (Or.inr (hr.path_none (fun _ => unpackOps_mem) (by rw [rdeleted hd])))
  | failed hd hr hc =>
    have h1 := hr.path_none (fun _ => unpackOps_mem) (by rw [rdeleted hd])
    exact RGood.of_none (Or.inr (hc.path_none (by simp) h1))
  | persisted hd hr hann hren hc =>
    obtain ⟨t, h1, h2, h3, h4⟩ := unpack_done (rdeleted hd) hr
    have hclean : ∀ {d3 : RDisk} {r}, RRun [.removeTmp] d3 d' r → d'.sha1 = d3.sha1 ∧ d'.path = d3.path := by
      intro d3 r hc
      cases hc with
      | stop => exact ⟨rfl, rfl⟩
      | tornTmp => exact ⟨rfl, rfl⟩
      | step hc => cases hc; exact ⟨rfl, rfl⟩
    obtain ⟨hcs, hcp⟩ := hclean hc
    cases hren with
    | stop => exact RGood.of_none (Or.inr (by rw [hcp, h3]))
    | step hren =>
      cases hren
      intro _
      refine ⟨_, hann, t, by rw [hcp]; exact h1, ?_⟩
      intro n c hn
      rw [h4, hn]

/-- **C36.** Whatever happens to an input of the runner that starts out unknown — downloads, kills and errors at any
point, over any number of lives of the process — if `Verify` accepts it, its directory holds every file of a
complete archive (one whose stream had the announced hash) with exactly that file's contents. -/
theorem C36_crash_safe (H : Bytes → Bytes) (ok : Bytes → Bool) (announced : List (Bytes × Bytes) → Prop) (d : RDisk)
    (hl : RLives H announced {} d) (hv : rverify H ok d = true) :
    ∃ ms, announced ms ∧ ∃ dir, d.path = some dir ∧ ∀ n c, fileOf ms n = some c → dir.get n = some c := by
  have hg : RGood H ok announced d := by
    clear hv
    generalize hd0 : ({} : RDisk) = d0 at hl
    induction hl with
    | refl => subst hd0; exact RGood.of_none (Or.inl rfl)
    | tail _ ha ih => exact RGood.after ih ha
  exact hg hv

/-- **C36** (later damage). `Verify` accepts a directory, however it came about, only if each file named in the
`.sha1` file is there with contents of the stored hash, and the settings decode: a file that was changed or removed
afterwards is noticed (unless its hash is the same). -/
theorem C36_damage (H : Bytes → Bytes) (ok : Bytes → Bool) (d : RDisk) (hv : rverify H ok d = true) :
    ∃ ls dir, d.sha1 = some ls ∧ d.path = some dir ∧
      (∀ n h, some (n, h) ∈ ls → ∃ c h', dir.get n = some c ∧ stored ls n = some h' ∧ H c = h') ∧
      ∃ c, dir.get "settings.json".toList = some c ∧ ok c = true := by
  obtain ⟨tmp, sha1, path⟩ := d
  unfold rverify at hv
  cases sha1 with
  | none => simp at hv
  | some ls =>
    cases path with
    | none => simp at hv
    | some dir =>
      dsimp only at hv
      rw [Bool.and_eq_true, List.all_eq_true] at hv
      refine ⟨ls, dir, rfl, rfl, fun n h hm => ?_, ?_⟩
      · have := hv.1 _ hm
        dsimp only at this
        revert this
        cases dir.get n with
        | none => simp
        | some c =>
          cases stored ls n with
          | none => simp
          | some h' => exact fun e => ⟨c, h', rfl, rfl, by simpa using e⟩
      · have := hv.2
        revert this
        cases dir.get "settings.json".toList with
        | none => simp
        | some c => exact fun e => ⟨c, rfl, e⟩

theorem stored_map (H : Bytes → Bytes) (ms : List (Bytes × Bytes)) (n : Bytes) :
    stored (ms.map fun m => line m.1 (H m.2)) n = (fileOf ms n).map H := by
  unfold stored fileOf
  rw [← List.map_reverse, List.filterMap_map]
  generalize ms.reverse = l
  induction l with
  | nil => rfl
  | cons x l ih =>
    obtain ⟨k, v⟩ := x
    rw [List.lookup_cons]
    by_cases h : k = n
    · subst h
      simp [line]
    · have h' : (n == k) = false := by simpa using fun hh => h hh.symm
      rw [h']
      simp only [line, Function.comp_apply, Option.bind_some, if_neg h, List.filterMap_cons]
      exact ih

/-- **C36** (accepted). A directory that was unpacked without interruption is accepted if its settings decode. -/
theorem C36_accepted (H : Bytes → Bytes) (ok : Bytes → Bool) (ms : List (Bytes × Bytes)) (d d1 d2 d3 : RDisk)
    (hd : RRun rdeleteOps d d1 true) (hr : RRun (unpackOps H ms) d1 d2 true) (hn : RRun [.rename] d2 d3 true)
    (c : Bytes) (hs : fileOf ms "settings.json".toList = some c) (hok : ok c = true) : rverify H ok d3 = true := by
  obtain ⟨t, h1, h2, h3, h4⟩ := unpack_done (rdeleted hd) hr
  have hd3 := hn.eq_of_done
  have hp : d3.path = some t := by rw [hd3]; exact h1
  have hs1 : d3.sha1 = some (ms.map fun m => line m.1 (H m.2)) := by rw [hd3]; exact h2
  unfold rverify
  rw [hs1, hp]
  dsimp only
  rw [h4, hs]
  simp only [hok, Bool.and_true]
  rw [List.all_eq_true]
  intro l hl
  obtain ⟨⟨n, b⟩, hm, rfl⟩ := List.mem_map.1 hl
  have hst := stored_map H ms n
  have hg := h4 n
  generalize (ms.map fun m => line m.1 (H m.2)) = ls at hst
  simp only [line, hst, hg]
  cases hf : fileOf ms n with
  | some x => simp
  | none =>
    exfalso
    unfold fileOf at hf
    rw [List.lookup_eq_none_iff] at hf
    have := hf (n, b) (by simpa using hm)
    simp at this

/-! An archive of three members, one of them twice. -/
def exMembers : List (Bytes × Bytes) :=
  [("settings.json".toList, "{}".toList), ("cases/1.in".toList, "1 2".toList), ("cases/1.in".toList, "1 3".toList)]

def exRDisk (n : Nat) : RDisk := ((unpackOps exH exMembers ++ [ROp.rename]).take n).foldl ROp.apply {}

example : (List.range 13).map (fun n => rverify exH (fun _ => true) (exRDisk n)) =
    [false, false, false, false, false, false, false, false, false, false, false, false, true] := by decide +kernel

theorem rrun_all (ops : List ROp) (d : RDisk) : RRun ops d (ops.foldl ROp.apply d) true := by
  induction ops generalizing d with
  | nil => exact .done
  | cons op ops ih => exact .step (ih _)

example : ∃ d, RLives exH (fun ms => ms = exMembers) {} d ∧ rverify exH (fun _ => true) d = true := by
  refine ⟨[ROp.removeTmp].foldl ROp.apply ([ROp.rename].foldl ROp.apply ((unpackOps exH exMembers).foldl ROp.apply
    (rdeleteOps.foldl ROp.apply {}))), .tail .refl (.persisted (rrun_all _ _) (rrun_all _ _) rfl (rrun_all _ _)
      (rrun_all _ _)), by decide +kernel⟩

end Quark.Persist
