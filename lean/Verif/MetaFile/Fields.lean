import Verif.MetaFile.Props
import Verif.Float.Decimal

/-!
# C130: every figure comes from the last line that mentions it
-/
namespace Quark.MetaFile
open Quark.Float (F64 fl roundQ decimalValue parseFloat Numeral numeralValue Digits)

/-- The last system call reported, by name or by number. -/
def lastSyscall (fields : List (List Char × List Char)) : Option (List Char) :=
  ((fields.filterMap fun f =>
    if f.1 = "syscall".toList then some f.2
    else if f.1 = "syscall_number".toList then some ("SYSCALL ".toList ++ f.2) else none)).getLast?

/-- The system call a field reports, if any. -/
def callVal (f : List Char × List Char) : Option (List Char) :=
  if f.1 = "syscall".toList then some f.2
  else if f.1 = "syscall_number".toList then some ("SYSCALL ".toList ++ f.2) else none

theorem lastSyscall_append (fs : List (List Char × List Char)) (f : List Char × List Char) :
    lastSyscall (fs ++ [f]) = (callVal f).or (lastSyscall fs) := by
  have h : ∀ g : List Char × List Char → Option (List Char),
      ((fs ++ [f]).filterMap g).getLast? = (g f).or ((fs.filterMap g).getLast?) := by
    intro g
    rw [List.filterMap_append]
    cases hg : g f <;> simp [hg]
  exact h callVal

theorem applyField_rest (m : Meta) (k v : List Char) :
    (applyField m k v).time = (if k = "time".toList then some v else m.time) ∧
    (applyField m k v).sysTime = (if k = "time-sys".toList then some v else m.sysTime) ∧
    (applyField m k v).wallTime = (if k = "time-wall".toList then some v else m.wallTime) ∧
    (applyField m k v).syscall = (callVal (k, v)).or m.syscall := by
  have hd : (["status", "time", "time-sys", "time-wall", "mem", "signal", "signal_number", "syscall",
      "syscall_number"].map String.toList).Nodup := by decide +kernel
  unfold applyField callVal
  generalize "SIGNAL ".toList = S at *
  generalize "SYSCALL ".toList = S' at *
  simp only [List.map_cons, List.map_nil] at hd
  generalize "status".toList = a0 at *
  generalize "time".toList = a1 at *
  generalize "time-sys".toList = a2 at *
  generalize "time-wall".toList = a3 at *
  generalize "mem".toList = a4 at *
  generalize "signal".toList = a5 at *
  generalize "signal_number".toList = a6 at *
  generalize "syscall".toList = a7 at *
  generalize "syscall_number".toList = a8 at *
  simp only [List.nodup_cons, List.mem_cons, List.not_mem_nil, or_false, not_or] at hd
  split_ifs <;> simp_all

theorem fold_rest (fs : List (List Char × List Char)) :
    let m := fs.foldl (fun m f => applyField m f.1 f.2) {}
    m.time = lastValue fs "time" ∧ m.sysTime = lastValue fs "time-sys" ∧
    m.wallTime = lastValue fs "time-wall" ∧ m.syscall = lastSyscall fs := by
  induction fs using List.reverseRecOn with
  | nil => exact ⟨rfl, rfl, rfl, rfl⟩
  | append_singleton fs f ih =>
    obtain ⟨h1, h2, h3, h4⟩ := ih
    simp only [List.foldl_append, List.foldl_cons, List.foldl_nil]
    obtain ⟨a, b, c, d⟩ := applyField_rest (fs.foldl (fun m f => applyField m f.1 f.2) {}) f.1 f.2
    rw [a, b, c, d, h1, h2, h3, h4, lastValue_append, lastValue_append, lastValue_append,
      lastSyscall_append]
    exact ⟨rfl, rfl, rfl, rfl⟩

/-- **C130** The result of a well-formed meta file: exit status (-1 without a `status` line), times,
signal and system call are those of the last line that mentions them, and so is memory (0 without
one) unless the run is reported as MLE. -/
theorem C130_fields (limit : Option Int) (lang : String) (file : List Char) (oom allow : Bool)
    (fields : List (List Char × List Char)) (hf : HasFields file fields) :
    let r := (parseMetaFile limit lang file oom allow).1
    r.exitStatus = exitOf fields ∧ r.time = lastValue fields "time" ∧
    r.sysTime = lastValue fields "time-sys" ∧ r.wallTime = lastValue fields "time-wall" ∧
    r.signal = lastSignal fields ∧ r.syscall = lastSyscall fields ∧
    (r.verdict ≠ .MLE → r.memory = memOf fields) := by
  obtain ⟨ls, hl, hlen, hff⟩ := hf
  have hs := scan_fields {} ls fields hlen hff
  obtain ⟨a1, a2, a3⟩ := fold_fields fields
  obtain ⟨b1, b2, b3, b4⟩ := fold_rest fields
  have hsp : splitLines [] file = ls := splitLines_of_hasLines hl
  simp only [parseMetaFile, hsp, hs, Bool.false_eq_true, if_false]
  cases limit with
  | none => exact ⟨a1, b1, b2, b3, a3, b4, fun _ => a2⟩
  | some lim =>
    simp only
    split
    · exact ⟨a1, b1, b2, b3, a3, b4, fun h => absurd rfl h⟩
    · exact ⟨a1, b1, b2, b3, a3, b4, fun _ => a2⟩

/-! ## Numbers -/

/-- The characters of decimal digits. -/
def digitChars (ds : List Nat) : List Char := ds.map fun d => Char.ofNat (48 + d)

/-- The number written with the digits `ds`, most significant first. -/
def written (ds : List Nat) : Nat := Nat.ofDigits 10 ds.reverse

theorem digits_chars (ds : List Nat) (hd : ∀ d ∈ ds, d < 10) (hne : ds ≠ []) :
    digits (digitChars ds) = some (written ds) := by
  have hchar : ∀ d < 10, ('0' ≤ Char.ofNat (48 + d) ∧ Char.ofNat (48 + d) ≤ '9') ∧
      (Char.ofNat (48 + d)).toNat - 48 = d := by decide
  have hfold : ∀ (ds : List Nat), (∀ d ∈ ds, d < 10) → ∀ n,
      (digitChars ds).foldl (fun acc c => acc.bind fun n =>
        if '0' ≤ c ∧ c ≤ '9' then some (n * 10 + (c.toNat - 48)) else none) (some n)
      = some (n * 10 ^ ds.length + written ds) := by
    intro ds
    induction ds with
    | nil => intro _ n; simp [digitChars, written]
    | cons d ds ih =>
      intro h n
      obtain ⟨h1, h2⟩ := hchar d (h d (by simp))
      have ih := ih (fun x hx => h x (by simp [hx])) (n * 10 + d)
      simp only [digitChars, List.map_cons, List.foldl_cons, Option.bind_some] at ih ⊢
      rw [if_pos h1, h2, ih]
      simp only [written, List.length_cons, List.reverse_cons, Nat.ofDigits_append, List.length_reverse,
        Nat.ofDigits_singleton, pow_succ]
      congr 1
      ring
  cases ds with
  | nil => exact absurd rfl hne
  | cons d ds =>
    have := hfold (d :: ds) hd 0
    rw [zero_mul, zero_add] at this
    rw [← this]
    rfl

/-- **C130** Reading a whole number (exit status, memory): an optional sign and decimal digits are
read as that number, or as the nearest 64-bit number if it does not fit; anything else is read as 0. -/
theorem C130_whole_number (ds : List Nat) (hd : ∀ d ∈ ds, d < 10) (hne : ds ≠ []) :
    atoi (digitChars ds) = min (written ds : Int) 9223372036854775807 ∧
    atoi ('+' :: digitChars ds) = min (written ds : Int) 9223372036854775807 ∧
    atoi ('-' :: digitChars ds) = max (-(written ds : Int)) (-9223372036854775808) := by
  have hdig := digits_chars ds hd hne
  have hstrip : stripSign (digitChars ds) = (false, digitChars ds) := by
    cases ds with
    | nil => exact absurd rfl hne
    | cons d ds =>
      have hh : ∀ d < 10, Char.ofNat (48 + d) ≠ '-' ∧ Char.ofNat (48 + d) ≠ '+' := by decide
      obtain ⟨h3, h4⟩ := hh d (hd d (by simp))
      unfold stripSign digitChars
      split
      · rename_i r hr; exact absurd (List.cons.inj hr).1 h3
      · rename_i r hr; exact absurd (List.cons.inj hr).1 h4
      · rfl
  refine ⟨?_, ?_, ?_⟩
  · unfold atoi; rw [hstrip]; simp only [hdig, Bool.false_eq_true, if_false]; norm_num
  · unfold atoi; simp only [stripSign, hdig, Bool.false_eq_true, if_false]; norm_num
  · unfold atoi; simp only [stripSign, hdig, if_true]; norm_num

theorem digits_some {s : List Char} {n : Nat} (h : digits s = some n) :
    ∃ ds, (∀ d ∈ ds, d < 10) ∧ ds ≠ [] ∧ s = digitChars ds := by
  have key : ∀ (s : List Char) (a : Option Nat) (n : Nat), s.foldl (fun acc c => acc.bind fun n =>
      if '0' ≤ c ∧ c ≤ '9' then some (n * 10 + (c.toNat - 48)) else none) a = some n →
      a ≠ none ∧ ∀ c ∈ s, '0' ≤ c ∧ c ≤ '9' := by
    intro s
    induction s with
    | nil => intro a n h; simp only [List.foldl_nil] at h; rw [h]; simp
    | cons c s ih =>
      intro a n h
      simp only [List.foldl_cons] at h
      obtain ⟨h1, h2⟩ := ih _ _ h
      cases a with
      | none => simp at h1
      | some m =>
        simp only [Option.bind_some] at h1
        by_cases hc : '0' ≤ c ∧ c ≤ '9'
        · refine ⟨by simp, ?_⟩
          intro x hx
          rcases List.mem_cons.mp hx with rfl | hx
          · exact hc
          · exact h2 x hx
        · rw [if_neg hc] at h1; exact absurd rfl h1
  cases s with
  | nil => simp [digits] at h
  | cons c s =>
    have hall := (key (c :: s) (some 0) n h).2
    refine ⟨(c :: s).map fun c => c.toNat - 48, ?_, by simp, ?_⟩
    · intro d hd
      obtain ⟨x, hx, rfl⟩ := List.mem_map.mp hd
      have := hall x hx
      simp only [Char.le_def, UInt32.le_iff_toNat_le] at this
      have h2 : x.toNat ≤ 57 := this.2
      omega
    · unfold digitChars
      rw [List.map_map]
      symm
      have : ∀ x ∈ c :: s, ((fun d => Char.ofNat (48 + d)) ∘ fun c => c.toNat - 48) x = id x := by
        intro x hx
        have hx' := hall x hx
        simp only [Char.le_def, UInt32.le_iff_toNat_le] at hx'
        have h1 : 48 ≤ x.toNat := hx'.1
        show Char.ofNat (48 + (x.toNat - 48)) = x
        rw [show 48 + (x.toNat - 48) = x.toNat by omega, Char.ofNat_toNat]
      rw [List.map_congr_left this, List.map_id]

/-- **C130** ... and anything else as 0. -/
theorem C130_not_a_number (s : List Char)
    (h : ¬ ∃ ds sign, (∀ d ∈ ds, d < 10) ∧ ds ≠ [] ∧ sign ∈ [[], ['+'], ['-']] ∧ s = sign ++ digitChars ds) :
    atoi s = 0 := by
  unfold atoi
  cases hd : digits (stripSign s).2 with
  | none => rfl
  | some n =>
    exfalso
    obtain ⟨ds, h1, h2, h3⟩ := digits_some hd
    apply h
    unfold stripSign at h3
    split at h3
    · exact ⟨ds, ['-'], h1, h2, by simp, by rw [← h3]; rfl⟩
    · exact ⟨ds, ['+'], h1, h2, by simp, by rw [← h3]; rfl⟩
    · exact ⟨ds, [], h1, h2, by simp, h3⟩

/-- runner/sandbox.go:422-430: a time in the file, in microseconds, as seconds; `none` where
`strconv.ParseFloat` fails (the code then uses the zero or infinity it returns with the error).
Only for texts of digits, points and minus signs, see `Float.decimalValue`. -/
def seconds (text : List Char) : Option F64 :=
  (parseFloat (text.map fun c => UInt8.ofNat c.toNat)).map fun x => x.div (.fin 1000000)

/-- **C130** A time written as a whole number of microseconds below 2⁵³ (285 years) is read as the
binary64 number of seconds nearest to it. -/
theorem C130_seconds (ds : List Nat) (hd : ∀ d ∈ ds, d < 10) (hne : ds ≠ [])
    (hsmall : written ds ≤ 2 ^ 53) :
    seconds (digitChars ds) = some (.fin (roundQ ((written ds : ℚ) / 1000000))) := by
  have hb : (digitChars ds).map (fun c => UInt8.ofNat c.toNat) = ds.map Float.digit := by
    unfold digitChars
    rw [List.map_map]
    apply List.map_congr_left
    intro d hd'
    have h10 := hd d hd'
    have : ∀ d < 10, UInt8.ofNat (Char.ofNat (48 + d)).toNat = Float.digit d := by decide
    exact this d h10
  have hv : decimalValue (ds.map Float.digit) = some (written ds : ℚ) := by
    rw [Float.C07_decimal]
    refine ⟨false, ds, [], ⟨hd, by simp [Digits], by simpa using hne, .inr ⟨rfl, by simp⟩⟩, ?_⟩
    simp [numeralValue, written]
  have hexact : roundQ (written ds : ℚ) = (written ds : ℚ) := by
    rcases Nat.lt_or_ge (written ds) (2 ^ 53) with hlt | hge
    · rcases Nat.eq_zero_or_pos (written ds) with h0 | hpos
      · rw [h0]; simp [Float.roundQ_zero]
      · have hq : (0 : ℚ) < written ds := by exact_mod_cast hpos
        have hlog : Int.log 2 (written ds : ℚ) < 53 := by
          rw [← Int.lt_zpow_iff_log_lt (by norm_num) hq]
          exact_mod_cast hlt
        have hu : Float.ulpExp (written ds : ℚ) ≤ 0 := by
          unfold Float.ulpExp
          rw [abs_of_pos hq]
          omega
        obtain ⟨m, hm⟩ := Float.zpow_dvd _ _ hu
        refine Float.roundQ_exact _ ((written ds : ℤ) * m) ?_
        rw [zpow_zero] at hm
        push_cast
        rw [mul_assoc, ← hm, mul_one]
    · have : written ds = 2 ^ 53 := by omega
      rw [this]
      have := Float.roundQ_pow 53 (by norm_num)
      push_cast
      exact_mod_cast this
  have hlt : |roundQ (written ds : ℚ)| < 2 ^ (1024 : ℕ) := by
    rw [hexact, abs_of_nonneg (Nat.cast_nonneg _)]
    calc (written ds : ℚ) ≤ 2 ^ (53 : ℕ) := by exact_mod_cast hsmall
      _ < 2 ^ (1024 : ℕ) := pow_lt_pow_right₀ (by norm_num) (by norm_num)
  have hp : parseFloat (ds.map Float.digit) = some (.fin (written ds)) := by
    unfold parseFloat
    rw [hv]
    simp only [fl]
    rw [if_pos hlt, hexact]
  have hdiv : |roundQ ((written ds : ℚ) / 1000000)| < 2 ^ (1024 : ℕ) := by
    have h0 : (0 : ℚ) ≤ written ds := Nat.cast_nonneg _
    have h1 : (written ds : ℚ) / 1000000 ≤ written ds := div_le_self h0 (by norm_num)
    have h2 := Float.roundQ_mono h1
    rw [abs_of_nonneg (Float.roundQ_nonneg (div_nonneg h0 (by norm_num)))]
    rw [abs_of_nonneg (Float.roundQ_nonneg h0)] at hlt
    exact lt_of_le_of_lt h2 hlt
  unfold seconds
  rw [hb, hp]
  simp only [Option.map_some, F64.div]
  rw [if_neg (by norm_num)]
  unfold fl
  rw [if_pos hdiv]

-- repeated fields, a number that does not fit, and 1.234567 seconds
def sampleText : List Char :=
  "status:0\ntime-sys:5\ntime-sys:7\nsyscall:read\nsyscall_number:3\nmem:99999999999999999999\n".toList

def sampleMeta : Meta where
  verdict := .OK
  exitStatus := 0
  sysTime := some ['7']
  memory := 9223372036854775807
  syscall := some "SYSCALL 3".toList

example : (parseMetaFile none "cpp" sampleText false false) = (sampleMeta, false) := by
  decide +kernel

example : (∀ d ∈ [1, 2, 3, 4, 5, 6, 7], d < 10) ∧ written [1, 2, 3, 4, 5, 6, 7] = 1234567 ∧
    digitChars [1, 2, 3, 4, 5, 6, 7] = "1234567".toList ∧
    seconds "1234567".toList = some (.fin (roundQ (1234567 / 1000000))) := by
  decide +kernel

end Quark.MetaFile
