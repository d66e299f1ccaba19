import Verif.Float.Props
import Mathlib.Data.Nat.Digits.Defs
import Mathlib.Tactic.Ring

/-!
# C07: which tokens are numbers, and which number

`Numeral` is the specification: an optional minus sign, decimal digits, and optionally a point and
more digits, with at least one digit in all.  `Nat.ofDigits` is Mathlib's (least digit first).
-/
namespace Quark.Float

/-- The character of a decimal digit. -/
def digit (d : ℕ) : UInt8 := UInt8.ofNat (48 + d)

/-- Decimal digits. -/
def Digits (ds : List ℕ) : Prop := ∀ d ∈ ds, d < 10

/-- `s` is a decimal numeral with sign `neg`, integer part `ip` and fractional part `fp`. -/
def Numeral (s : List UInt8) (neg : Bool) (ip fp : List ℕ) : Prop :=
  Digits ip ∧ Digits fp ∧ ip ++ fp ≠ [] ∧
  (s = (if neg then [45] else []) ++ ip.map digit ++ [46] ++ fp.map digit ∨
    (fp = [] ∧ s = (if neg then [45] else []) ++ ip.map digit))

/-- The number a numeral denotes. -/
def numeralValue (neg : Bool) (ip fp : List ℕ) : ℚ :=
  (if neg then -1 else 1) *
    ((Nat.ofDigits 10 ip.reverse : ℕ) + (Nat.ofDigits 10 fp.reverse : ℕ) / 10 ^ fp.length)

theorem digit_toNat (d : ℕ) (h : d < 10) : (digit d).toNat = 48 + d := by
  unfold digit
  rw [UInt8.toNat_ofNat', Nat.mod_eq_of_lt (by omega)]

theorem digit_of (b : UInt8) (h : 0x30 ≤ b.toNat ∧ b.toNat ≤ 0x39) : digit (b.toNat - 0x30) = b := by
  unfold digit
  apply UInt8.toNat_inj.mp
  rw [UInt8.toNat_ofNat', Nat.mod_eq_of_lt (by omega)]
  omega

/-- Digits and what they add up to, most significant first. -/
theorem digits_fold (l : List UInt8) (acc n : ℕ) :
    l.foldl (fun acc b => acc.bind fun n =>
      if 0x30 ≤ b.toNat ∧ b.toNat ≤ 0x39 then some (n * 10 + (b.toNat - 0x30)) else none) (some acc) = some n ↔
    ∃ ds, Digits ds ∧ l = ds.map digit ∧ n = acc * 10 ^ ds.length + Nat.ofDigits 10 ds.reverse := by
  induction l generalizing acc with
  | nil =>
    simp only [List.foldl_nil, Option.some.injEq]
    constructor
    · rintro rfl; exact ⟨[], by simp [Digits], rfl, by simp⟩
    · rintro ⟨ds, -, h, hn⟩
      have : ds = [] := by simpa using h.symm
      subst this; simpa using hn.symm
  | cons b l ih =>
    simp only [List.foldl_cons, Option.bind_some]
    by_cases hb : 0x30 ≤ b.toNat ∧ b.toNat ≤ 0x39
    · rw [if_pos hb, ih]
      constructor
      · rintro ⟨ds, h1, rfl, rfl⟩
        refine ⟨(b.toNat - 0x30) :: ds, ?_, by rw [List.map_cons, digit_of b hb], ?_⟩
        · intro d hd
          rcases List.mem_cons.mp hd with rfl | hd
          · omega
          · exact h1 d hd
        · simp only [List.length_cons, List.reverse_cons, Nat.ofDigits_append, List.length_reverse,
            Nat.ofDigits_singleton, pow_succ]
          ring
      · rintro ⟨ds, h1, h2, rfl⟩
        cases ds with
        | nil => simp at h2
        | cons d ds =>
          simp only [List.map_cons, List.cons.injEq] at h2
          obtain ⟨rfl, rfl⟩ := h2
          have hd := h1 d (by simp)
          refine ⟨ds, fun x hx => h1 x (by simp [hx]), rfl, ?_⟩
          rw [digit_toNat d hd]
          simp only [List.length_cons, List.reverse_cons, Nat.ofDigits_append, List.length_reverse,
            Nat.ofDigits_singleton, pow_succ, Nat.add_sub_cancel_left]
          ring
    · rw [if_neg hb]
      constructor
      · intro h
        exfalso
        revert h
        clear ih
        induction l with
        | nil => simp
        | cons a l ih => simpa using ih
      · rintro ⟨ds, h1, h2, -⟩
        cases ds with
        | nil => simp at h2
        | cons d ds =>
          simp only [List.map_cons, List.cons.injEq] at h2
          have hd := h1 d (by simp)
          rw [h2.1, digit_toNat d hd] at hb
          omega

theorem digitsVal_iff (l : List UInt8) (n : ℕ) :
    digitsVal l = some n ↔ ∃ ds, Digits ds ∧ l = ds.map digit ∧ n = Nat.ofDigits 10 ds.reverse := by
  unfold digitsVal
  rw [digits_fold]
  simp only [zero_mul, zero_add]

theorem digit_ne_point (ds : List ℕ) (h : Digits ds) : ∀ b ∈ ds.map digit, b ≠ 0x2e := by
  intro b hb
  obtain ⟨d, hd, rfl⟩ := List.mem_map.mp hb
  intro e
  have := congrArg UInt8.toNat e
  rw [digit_toNat d (h d hd)] at this
  simp at this
  omega

theorem digit_ne_minus (d : ℕ) (h : d < 10) : digit d ≠ 0x2d := by
  intro e
  have := congrArg UInt8.toNat e
  rw [digit_toNat d h] at this
  simp at this
  omega

theorem takeWhile_point (l r : List UInt8) (h : ∀ b ∈ l, b ≠ 0x2e) :
    (l ++ 0x2e :: r).takeWhile (fun b => b ≠ 0x2e) = l ∧
    (l ++ 0x2e :: r).dropWhile (fun b => b ≠ 0x2e) = 0x2e :: r := by
  induction l with
  | nil => simp
  | cons a l ih =>
    have ha := h a (by simp)
    obtain ⟨h1, h2⟩ := ih (fun b hb => h b (by simp [hb]))
    simp only [List.cons_append, List.takeWhile_cons, List.dropWhile_cons, ha, ne_eq,
      not_false_eq_true, decide_true, if_true]
    exact ⟨congrArg (a :: ·) h1, h2⟩

theorem takeWhile_nopoint (l : List UInt8) (h : ∀ b ∈ l, b ≠ 0x2e) :
    l.takeWhile (fun b => b ≠ 0x2e) = l ∧ l.dropWhile (fun b => b ≠ 0x2e) = [] := by
  induction l with
  | nil => simp
  | cons a l ih =>
    have ha := h a (by simp)
    obtain ⟨h1, h2⟩ := ih (fun b hb => h b (by simp [hb]))
    simp only [List.takeWhile_cons, List.dropWhile_cons, ha, ne_eq, not_false_eq_true, decide_true,
      if_true]
    exact ⟨congrArg (a :: ·) h1, h2⟩

/-- The value of what follows the sign. -/
def bodyValue (body : List UInt8) : Option ℚ :=
  let ip := body.takeWhile (fun b => b ≠ 0x2e)
  let fp := (body.dropWhile (fun b => b ≠ 0x2e)).drop 1
  match digitsVal ip, digitsVal fp with
  | some i, some f => if ip.length + fp.length = 0 then none else some (i + f / 10 ^ fp.length)
  | _, _ => none

theorem decimal_neg (r : List UInt8) : decimalValue (0x2d :: r) = (bodyValue r).map fun v => -v := by
  unfold decimalValue bodyValue
  simp only
  split
  · rename_i i f h1 h2
    rw [h1, h2]
    dsimp only
    split <;> simp
  · rename_i h
    split
    · rename_i i f h1 h2
      exact absurd h2 (h i f h1)
    · rfl

theorem decimal_pos (s : List UInt8) (h : ∀ r, s ≠ 0x2d :: r) : decimalValue s = bodyValue s := by
  unfold decimalValue bodyValue
  split
  rename_i neg body hb
  have : (neg, body) = (false, s) := by
    rw [← hb]
    split
    · exact absurd rfl (h _)
    · rfl
  obtain ⟨rfl, rfl⟩ := Prod.mk.inj this
  dsimp only
  generalize digitsVal (List.takeWhile _ _) = A
  generalize digitsVal (List.drop 1 _) = B
  cases A <;> cases B <;> rfl

theorem bodyValue_iff (body : List UInt8) (v : ℚ) :
    bodyValue body = some v ↔ ∃ ip fp, Digits ip ∧ Digits fp ∧ ip ++ fp ≠ [] ∧
      (body = ip.map digit ++ [46] ++ fp.map digit ∨ (fp = [] ∧ body = ip.map digit)) ∧
      v = (Nat.ofDigits 10 ip.reverse : ℕ) + (Nat.ofDigits 10 fp.reverse : ℕ) / 10 ^ fp.length := by
  constructor
  · intro h
    unfold bodyValue at h
    simp only at h
    have hsplit := List.takeWhile_append_dropWhile (p := fun b : UInt8 => decide (b ≠ 0x2e)) (l := body)
    generalize hip : body.takeWhile (fun b => b ≠ 0x2e) = ipb at h
    generalize hdw : body.dropWhile (fun b => b ≠ 0x2e) = rest at h
    rw [hip, hdw] at hsplit
    cases h1 : digitsVal ipb with
    | none => simp [h1] at h
    | some i =>
      cases h2 : digitsVal (rest.drop 1) with
      | none => simp only [h1, h2] at h; exact absurd h (by simp)
      | some f =>
        simp only [h1, h2] at h
        by_cases hl : ipb.length + (rest.drop 1).length = 0
        · rw [if_pos hl] at h; exact absurd h (by simp)
        · rw [if_neg hl] at h
          obtain ⟨ip, dip, rfl, rfl⟩ := (digitsVal_iff _ _).mp h1
          obtain ⟨fp, dfp, hfp, rfl⟩ := (digitsVal_iff _ _).mp h2
          refine ⟨ip, fp, dip, dfp, ?_, ?_, ?_⟩
          · intro he
            apply hl
            rw [hfp]
            rw [List.append_eq_nil_iff] at he
            simp [he.1, he.2]
          · cases rest with
            | nil =>
              right
              have : fp = [] := by simpa using hfp.symm
              exact ⟨this, by rw [← hsplit]; simp⟩
            | cons c rest =>
              left
              have hc : c = 0x2e := by
                have := List.head?_dropWhile_not (fun b : UInt8 => decide (b ≠ 0x2e)) body
                rw [hdw] at this
                simpa using this
              subst hc
              simp only [List.drop_succ_cons, List.drop_zero] at hfp
              rw [← hsplit, hfp]
              simp
          · have := Option.some.inj h
            rw [← this, hfp, List.length_map]
  · rintro ⟨ip, fp, dip, dfp, hne, hb, rfl⟩
    have e1 := (digitsVal_iff (ip.map digit) _).mpr ⟨ip, dip, rfl, rfl⟩
    have e2 := (digitsVal_iff (fp.map digit) _).mpr ⟨fp, dfp, rfl, rfl⟩
    have hlen : ¬ ((ip.map digit).length + (fp.map digit).length = 0) := by
      simp only [List.length_map]
      intro h
      apply hne
      rw [List.append_eq_nil_iff]
      exact ⟨List.length_eq_zero_iff.mp (by omega), List.length_eq_zero_iff.mp (by omega)⟩
    rcases hb with rfl | ⟨rfl, rfl⟩
    · have e : ip.map digit ++ [46] ++ fp.map digit = ip.map digit ++ 0x2e :: fp.map digit := by simp
      rw [e]
      obtain ⟨t1, t2⟩ := takeWhile_point (ip.map digit) (fp.map digit) (digit_ne_point ip dip)
      unfold bodyValue
      simp only [t1, t2, List.drop_succ_cons, List.drop_zero, e1, e2]
      rw [if_neg hlen, List.length_map]
    · obtain ⟨t1, t2⟩ := takeWhile_nopoint (ip.map digit) (digit_ne_point ip dip)
      simp only [List.map_nil] at e2 hlen
      unfold bodyValue
      simp only [t1, t2, List.drop_nil, e1, e2]
      rw [if_neg hlen]
      rfl

/-- **C07** A token is read as the number `v` exactly if it is a decimal numeral that denotes `v`;
anything else is not a number. -/
theorem C07_decimal (s : List UInt8) (v : ℚ) :
    decimalValue s = some v ↔ ∃ neg ip fp, Numeral s neg ip fp ∧ v = numeralValue neg ip fp := by
  have hnot : ∀ (ip fp : List ℕ) (r : List UInt8), Digits ip →
      (0x2d :: r = ip.map digit ++ [46] ++ fp.map digit ∨ (ip ++ fp ≠ [] ∧ fp = [] ∧ 0x2d :: r = ip.map digit)) →
      False := by
    intro ip fp r hd h
    cases ip with
    | nil =>
      rcases h with h | ⟨h1, h2, h⟩
      · simp at h
      · simp at h
    | cons d ip =>
      have hd' := digit_ne_minus d (hd d (by simp))
      rcases h with h | ⟨-, -, h⟩
      · simp only [List.map_cons, List.cons_append, List.cons.injEq] at h; exact hd' h.1.symm
      · simp only [List.map_cons, List.cons.injEq] at h; exact hd' h.1.symm
  by_cases hs : ∃ r, s = 0x2d :: r
  · obtain ⟨r, rfl⟩ := hs
    rw [decimal_neg, Option.map_eq_some_iff]
    constructor
    · rintro ⟨w, hw, rfl⟩
      obtain ⟨ip, fp, a, b, c, d, rfl⟩ := (bodyValue_iff _ _).mp hw
      refine ⟨true, ip, fp, ⟨a, b, c, ?_⟩, by simp [numeralValue]⟩
      rcases d with d | ⟨d1, d2⟩
      · left; rw [d]; simp
      · right; exact ⟨d1, by rw [d2]; simp⟩
    · rintro ⟨neg, ip, fp, ⟨a, b, c, d⟩, rfl⟩
      cases neg with
      | false =>
        exfalso
        apply hnot ip fp r a
        rcases d with d | ⟨d1, d2⟩
        · left; simpa using d
        · right; exact ⟨c, d1, by simpa using d2⟩
      | true =>
        refine ⟨_, (bodyValue_iff _ _).mpr ⟨ip, fp, a, b, c, ?_, rfl⟩, by simp [numeralValue]⟩
        rcases d with d | ⟨d1, d2⟩
        · left; simpa using d
        · right; exact ⟨d1, by simpa using d2⟩
  · have hs' : ∀ r, s ≠ 0x2d :: r := fun r h => hs ⟨r, h⟩
    rw [decimal_pos s hs', bodyValue_iff]
    constructor
    · rintro ⟨ip, fp, a, b, c, d, rfl⟩
      exact ⟨false, ip, fp, ⟨a, b, c, by simpa using d⟩, by simp [numeralValue]⟩
    · rintro ⟨neg, ip, fp, ⟨a, b, c, d⟩, rfl⟩
      cases neg with
      | false => exact ⟨ip, fp, a, b, c, by simpa using d, by simp [numeralValue]⟩
      | true =>
        exfalso
        rcases d with d | ⟨d1, d2⟩
        · exact hs' _ (by rw [d]; simp; rfl)
        · exact hs' _ (by rw [d2]; simp; rfl)

-- "-12.50", "." and "1.2.3"
example : Numeral [45, 49, 50, 46, 53, 48] true [1, 2] [5, 0] ∧
    numeralValue true [1, 2] [5, 0] = -25/2 ∧
    decimalValue [45, 49, 50, 46, 53, 48] = some (-25/2) ∧
    decimalValue [46] = none ∧ decimalValue [49, 46, 50, 46, 51] = none := by
  refine ⟨⟨by unfold Digits; decide, by unfold Digits; decide, by decide, .inl (by decide)⟩, ?_, ?_, ?_, ?_⟩ <;>
    decide +kernel

end Quark.Float
