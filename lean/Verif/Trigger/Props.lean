import Verif.Trigger.Model
import Mathlib.Data.List.Infix

/-!
# C118: what triggers a refresh
-/

namespace Quark.Trigger

open Quark.Wire (Bytes quote quoteAscii unquote clean safe hexDigit encodeRune IsScalar ValidUtf8)
open Quark.Tokenizer (decodeRune runeError decodeRune_pos)

/-! ### Substrings -/

theorem contains_iff (t p : Bytes) : contains t p = true ↔ p <:+: t := by
  induction t with
  | nil => simp [contains]
  | cons b t ih =>
    unfold contains
    rw [Bool.or_eq_true, ih, List.infix_cons_iff]
    simp

/-! ### Quoted strings -/

/-- A piece of a string and how it is written. -/
inductive Piece : Bytes → Bytes → Prop
  | plain {c} : c ≠ [] → (∀ b ∈ c, b ≠ 0x22 ∧ b ≠ 0x5C) → Piece c c
  | quote : Piece [0x22] [0x5C, 0x22]
  | esc {c e} : c ≠ [] → (∀ b ∈ c, b ≠ 0x22 ∧ safe b = false) → (∀ b ∈ e, b ≠ 0x22) → Piece c (0x5C :: e)

inductive Quoted : Bytes → Bytes → Prop
  | nil : Quoted [] []
  | cons {c q s t} : Piece c q → Quoted s t → Quoted (c ++ s) (q ++ t)

theorem hexDigit_ne (n : Nat) (h : n < 16) : hexDigit n ≠ 0x22 := by
  have : ∀ n, n < 16 → hexDigit n ≠ 0x22 := by decide
  exact this n h

theorem piece_ascii (b : UInt8) : Piece [b] (quoteAscii b) := by
  unfold quoteAscii
  by_cases hs : safe b = true
  · rw [if_pos hs]
    refine .plain (by simp) ?_
    intro x hx
    rw [List.mem_singleton] at hx
    subst hx
    constructor
    · rintro rfl; revert hs; decide
    · rintro rfl; revert hs; decide
  · rw [if_neg hs]
    by_cases h1 : b.toNat = 0x5C ∨ b.toNat = 0x22
    · rw [if_pos h1]
      rcases h1 with h1 | h1
      · have hb : b = 0x5C := UInt8.toNat.inj h1
        subst hb
        exact .esc (by simp) (by decide) (by decide)
      · have hb : b = 0x22 := UInt8.toNat.inj h1
        subst hb
        exact .quote
    · rw [if_neg h1]
      have hc : ∀ x ∈ [b], x ≠ 0x22 ∧ safe x = false := by
        intro x hx
        rw [List.mem_singleton] at hx
        subst hx
        refine ⟨?_, by simpa using hs⟩
        rintro rfl
        exact h1 (Or.inr rfl)
      by_cases h2 : b.toNat = 0x0A
      · rw [if_pos h2]; exact .esc (by simp) hc (by decide)
      · rw [if_neg h2]
        by_cases h3 : b.toNat = 0x0D
        · rw [if_pos h3]; exact .esc (by simp) hc (by decide)
        · rw [if_neg h3]
          by_cases h4 : b.toNat = 0x09
          · rw [if_pos h4]; exact .esc (by simp) hc (by decide)
          · rw [if_neg h4]
            refine .esc (by simp) hc ?_
            have hb := b.toNat_lt
            intro x hx
            simp only [List.mem_cons, List.not_mem_nil, or_false] at hx
            rcases hx with rfl | rfl | rfl | rfl | rfl
            · decide
            · decide
            · decide
            · exact hexDigit_ne _ (by omega)
            · exact hexDigit_ne _ (by omega)

theorem encodeRune_high {r : Nat} (hr : IsScalar r) (hge : 0x80 ≤ r) : ∀ b ∈ encodeRune r, 0x80 ≤ b.toNat := by
  unfold IsScalar at hr
  unfold encodeRune
  intro b hb
  split_ifs at hb with h1 h2 h3 h4
  · omega
  · simp only [List.mem_cons, List.not_mem_nil, or_false] at hb
    rcases hb with rfl | rfl <;> rw [Wire.toNat_ofNat_lt (by omega)] <;> omega
  · simp only [List.mem_cons, List.not_mem_nil, or_false] at hb
    rcases hb with rfl | rfl | rfl <;> decide
  · simp only [List.mem_cons, List.not_mem_nil, or_false] at hb
    rcases hb with rfl | rfl | rfl <;> rw [Wire.toNat_ofNat_lt (by omega)] <;> omega
  · simp only [List.mem_cons, List.not_mem_nil, or_false] at hb
    rcases hb with rfl | rfl | rfl | rfl <;> rw [Wire.toNat_ofNat_lt (by omega)] <;> omega

/-- The rune at the start of a text whose first byte is not ASCII. -/
theorem rune_high {b : UInt8} {rest : Bytes} (hb : ¬ b.toNat < 0x80)
    (h : ¬ ((decodeRune (b :: rest)).1 = runeError ∧ (decodeRune (b :: rest)).2 = 1)) :
    IsScalar (decodeRune (b :: rest)).1 ∧ 0x80 ≤ (decodeRune (b :: rest)).1 ∧
      encodeRune (decodeRune (b :: rest)).1 = (b :: rest).take (decodeRune (b :: rest)).2 ∧
      (b :: rest).take (decodeRune (b :: rest)).2 ≠ [] := by
  obtain ⟨h1, h2⟩ := Wire.encode_decode b rest h
  have hpos := decodeRune_pos b rest
  obtain ⟨k, hk⟩ : ∃ k, (decodeRune (b :: rest)).2 = k + 1 := ⟨_, (Nat.succ_pred_eq_of_pos hpos).symm⟩
  refine ⟨h1, ?_, h2, by rw [hk]; simp⟩
  by_contra hlt
  have hlt : (decodeRune (b :: rest)).1 < 0x80 := by omega
  unfold encodeRune at h2
  rw [if_pos hlt, hk, List.take_succ_cons] at h2
  have := congrArg UInt8.toNat (List.cons.inj h2).1
  rw [Wire.toNat_ofNat_lt (by omega)] at this
  omega

theorem quoted_quote (s : Bytes) : Quoted s (quote s) := by
  induction hn : s.length using Nat.strongRecOn generalizing s with
  | _ n ih =>
    match s with
    | [] => rw [quote]; exact .nil
    | b :: rest =>
      have hpos := decodeRune_pos b rest
      have hlr : rest.length < n := by rw [← hn]; simp
      have hld : ((b :: rest).drop (decodeRune (b :: rest)).2).length < n := by
        rw [← hn]; simp only [List.length_drop, List.length_cons]; omega
      rw [quote]
      by_cases hb : b.toNat < 0x80
      · rw [if_pos hb]
        exact .cons (piece_ascii b) (ih _ hlr rest rfl)
      · rw [if_neg hb]
        simp only
        have high : ∀ x : UInt8, 0x80 ≤ x.toNat → x ≠ 0x22 ∧ safe x = false := by
          intro x hx
          refine ⟨by rintro rfl; revert hx; decide, ?_⟩
          unfold safe
          rw [Bool.eq_false_iff]
          intro h
          simp only [Bool.and_eq_true, decide_eq_true_eq] at h
          omega
        split
        · refine .cons (c := [b]) (.esc (by simp) ?_ (by decide)) (ih _ hlr rest rfl)
          intro x hx
          rw [List.mem_singleton] at hx
          subst hx
          exact high x (by omega)
        · rename_i hv
          obtain ⟨h1, h2, h3, h4⟩ := rune_high hb hv
          have hs : b :: rest = (b :: rest).take (decodeRune (b :: rest)).2 ++
            (b :: rest).drop (decodeRune (b :: rest)).2 := (List.take_append_drop _ _).symm
          split
          · conv_lhs => rw [hs]
            refine .cons (.esc h4 (fun x hx => ?_) ?_) (ih _ hld _ rfl)
            · rw [← h3] at hx
              exact high x (encodeRune_high h1 h2 x hx)
            intro x hx
            simp only [List.mem_cons, List.not_mem_nil, or_false] at hx
            rcases hx with rfl | rfl | rfl | rfl | rfl
            · decide
            · decide
            · decide
            · decide
            · exact hexDigit_ne _ (by omega)
          · conv_lhs => rw [hs]
            refine .cons (.plain h4 ?_) (ih _ hld _ rfl)
            intro x hx
            rw [← h3] at hx
            have := encodeRune_high h1 h2 x hx
            constructor
            · rintro rfl; revert this; decide
            · rintro rfl; revert this; decide

/-- Plain bytes. -/
def Plain (m : Bytes) : Prop := ∀ b ∈ m, b ≠ 0x22 ∧ b ≠ 0x5C

/-- The end of a quoted string is where the first quote is. -/
theorem Quoted.close {s q m rest x : Bytes} (h : Quoted s q) (hm : Plain m) (he : q ++ 0x22 :: rest = m ++ 0x22 :: x) :
    s = m ∧ rest = x := by
  induction h generalizing m with
  | nil =>
    cases m with
    | nil => exact ⟨rfl, (List.cons.inj he).2⟩
    | cons b m => exact absurd (List.cons.inj he).1.symm (hm b (List.mem_cons_self ..)).1
  | @cons c q1 s t hp _ ih =>
    rw [List.append_assoc] at he
    cases hp with
    | plain hne hc =>
      rcases List.append_eq_append_iff.mp he with ⟨m', h1, h2⟩ | ⟨t', h1, h2⟩
      · subst h1
        obtain ⟨e1, e2⟩ := ih (m := m') (fun b hb => hm b (List.mem_append_right _ hb)) h2
        rw [e1]; exact ⟨rfl, e2⟩
      · cases t' with
        | nil =>
          rw [List.append_nil] at h1
          obtain ⟨e1, e2⟩ := ih (m := []) (by intro b hb; cases hb) h2.symm
          rw [e1, List.append_nil]; exact ⟨h1, e2⟩
        | cons b t' =>
          have hb : b = 0x22 := by
            have := (List.cons.inj h2).1
            exact this.symm
          subst hb
          exact absurd rfl (hc 0x22 (by rw [h1]; simp)).1
    | quote =>
      cases m with
      | nil => exact absurd (List.cons.inj he).1 (by decide)
      | cons b m => exact absurd (List.cons.inj he).1.symm (hm b (List.mem_cons_self ..)).2
    | esc hne _ hc =>
      cases m with
      | nil => exact absurd (List.cons.inj he).1 (by decide)
      | cons b m => exact absurd (List.cons.inj he).1.symm (hm b (List.mem_cons_self ..)).2

/-- A quote followed by plain bytes and a quote in what starts with a quoted string: at the end of the string, after it,
or such that the string ends with these bytes. -/
theorem Quoted.inside {s q m rest x y : Bytes} (h : Quoted s q) (hm : Plain m)
    (he : q ++ 0x22 :: rest = y ++ 0x22 :: (m ++ 0x22 :: x)) :
    (∃ s1, s = s1 ++ 0x22 :: m ∧ rest = x) ∨ (rest = m ++ 0x22 :: x) ∨ ∃ y', rest = y' ++ 0x22 :: (m ++ 0x22 :: x) := by
  induction h generalizing y with
  | nil =>
    cases y with
    | nil => exact Or.inr (Or.inl (List.cons.inj he).2)
    | cons b y => exact Or.inr (Or.inr ⟨y, (List.cons.inj he).2⟩)
  | @cons c q1 s t hp ht ih =>
    rw [List.append_assoc] at he
    rcases List.append_eq_append_iff.mp he with ⟨y', h1, h2⟩ | ⟨t', h1, h2⟩
    · rcases ih h2 with ⟨s1, e1, e2⟩ | e | e
      · exact Or.inl ⟨c ++ s1, by rw [e1, List.append_assoc], e2⟩
      · exact Or.inr (Or.inl e)
      · exact Or.inr (Or.inr e)
    · cases t' with
      | nil =>
        rcases ih (y := []) h2.symm with ⟨s1, e1, e2⟩ | e | e
        · exact Or.inl ⟨c ++ s1, by rw [e1, List.append_assoc], e2⟩
        · exact Or.inr (Or.inl e)
        · exact Or.inr (Or.inr e)
      | cons b t' =>
        have hb : b = 0x22 := (List.cons.inj h2).1.symm
        have h3 := (List.cons.inj h2).2
        subst hb
        cases hp with
        | plain hne hc => exact absurd rfl (hc 0x22 (by rw [h1]; simp)).1
        | quote =>
          cases y with
          | nil => exact absurd (List.cons.inj h1).1 (by decide)
          | cons b y =>
            have h1 := (List.cons.inj h1).2
            cases y with
            | nil =>
              have : t' = [] := ((List.cons.inj h1).2).symm
              subst this
              obtain ⟨e1, e2⟩ := ht.close hm h3.symm
              exact Or.inl ⟨[], by rw [e1]; rfl, e2⟩
            | cons b y => exact absurd (congrArg List.length h1) (by simp)
        | esc hne _ hc =>
          cases y with
          | nil => exact absurd (List.cons.inj h1).1 (by decide)
          | cons b y =>
            have h1 := (List.cons.inj h1).2
            exact absurd rfl (hc 0x22 (by rw [h1]; simp))

/-- Quotes are pieces of their own, -/
theorem Quoted.split {s q t m : Bytes} (h : Quoted s q) (hs : s = t ++ 0x22 :: m) :
    ∃ q1 q2, q = q1 ++ 0x5C :: 0x22 :: q2 ∧ Quoted m q2 := by
  induction h generalizing t with
  | nil => exact absurd (congrArg List.length hs) (by simp)
  | @cons c q1 s u hp hq ih =>
    rcases List.append_eq_append_iff.mp hs with ⟨t', h1, h2⟩ | ⟨c', h1, h2⟩
    · obtain ⟨a, b, e, hb⟩ := ih h2
      exact ⟨q1 ++ a, b, by rw [e, List.append_assoc], hb⟩
    · cases c' with
      | nil =>
        obtain ⟨a, b, e, hb⟩ := ih (t := []) h2.symm
        exact ⟨q1 ++ a, b, by rw [e, List.append_assoc], hb⟩
      | cons x c' =>
        have hx : x = 0x22 := (List.cons.inj h2).1.symm
        have h3 := (List.cons.inj h2).2
        subst hx
        cases hp with
        | plain hne hc => exact absurd rfl (hc 0x22 (by rw [h1]; simp)).1
        | esc hne hc he => exact absurd rfl (hc 0x22 (by rw [h1]; simp)).1
        | quote =>
          cases t with
          | cons y t => exact absurd (congrArg List.length h1) (by simp)
          | nil =>
            have : c' = [] := (List.cons.inj h1).2.symm
            subst this
            have h3 : m = s := h3
            subst h3
            exact ⟨[], u, rfl, hq⟩

/-- and safe characters are written as they are. -/
theorem Quoted.safe {s q : Bytes} (h : Quoted s q) (hs : ∀ b ∈ s, safe b = true) : q = s := by
  induction h with
  | nil => rfl
  | @cons c q1 s u hp hq ih =>
    rw [ih fun b hb => hs b (List.mem_append_right _ hb)]
    cases hp with
    | plain => rfl
    | quote => exact absurd (hs 0x22 (by simp)) (by decide)
    | esc hne hc he =>
      cases c with
      | nil => exact absurd rfl hne
      | cons x c =>
        have := hs x (by simp)
        rw [(hc x (List.mem_cons_self ..)).2] at this
        cases this

/-! ### Pieces of printed JSON -/

/-- Punctuation and atoms: they hold no quote, do not start with an `m`, and only `:` starts with `:`. -/
def RawOk (a : Bytes) : Prop :=
  a ≠ [] ∧ (∀ b ∈ a, b ≠ 0x22) ∧ a.head? ≠ some 0x6D ∧ (a.head? = some 0x3A → a = [0x3A])

def TokOk : Tok → Prop
  | .raw a => RawOk a
  | .str _ => True

/-- `message` -/
def msg : Bytes := [0x6D, 0x65, 0x73, 0x73, 0x61, 0x67, 0x65]

/-- `/run/update/` -/
def update : Bytes := [0x2F, 0x72, 0x75, 0x6E, 0x2F, 0x75, 0x70, 0x64, 0x61, 0x74, 0x65, 0x2F]

theorem pattern_eq (z : Bytes) : pattern ++ z = 0x22 :: (msg ++ 0x22 :: (0x3A :: 0x22 :: (update ++ 0x22 :: z))) := by
  simp [pattern, msg, update]

/-- A key that the handler takes for `message`. -/
def Keyish (k : Bytes) : Prop := k = msg ∨ ∃ t, k = t ++ 0x22 :: msg

theorem text_cons (t : Tok) (ts : List Tok) : text (t :: ts) = tokText t ++ text ts := by
  simp [text]

theorem plain_msg : Plain msg := by unfold Plain msg; decide
theorem plain_update : Plain update := by unfold Plain update; decide

/-- After the key: a colon and the value. -/
theorem after_key {ts : List Tok} (hok : ∀ t ∈ ts, TokOk t) {z : Bytes}
    (h : text ts = 0x3A :: 0x22 :: (update ++ 0x22 :: z)) : ∃ post, ts = colon :: .str update :: post := by
  cases ts with
  | nil => simp [text] at h
  | cons t ts =>
    rw [text_cons] at h
    cases t with
    | str s => exact absurd (List.cons.inj h).1 (by decide)
    | raw a =>
      obtain ⟨h1, h2, h3, h4⟩ := hok _ (List.mem_cons_self ..)
      cases a with
      | nil => exact absurd rfl h1
      | cons b a =>
        have hb : b = 0x3A := (List.cons.inj h).1
        subst hb
        have ha := h4 rfl
        rw [ha] at h
        have h5 : text ts = 0x22 :: (update ++ 0x22 :: z) := (List.cons.inj h).2
        cases ts with
        | nil => simp [text] at h5
        | cons t ts =>
          rw [text_cons] at h5
          cases t with
          | raw a' =>
            obtain ⟨g1, g2, -, -⟩ := hok (.raw a') (by simp)
            cases a' with
            | nil => exact absurd rfl g1
            | cons b' a' => exact absurd (List.cons.inj h5).1 (g2 b' (List.mem_cons_self ..))
          | str v =>
            have h6 : quote v ++ 0x22 :: text ts = update ++ 0x22 :: z := by
              have := (List.cons.inj h5).2
              simpa using this
            obtain ⟨e, -⟩ := (quoted_quote v).close plain_update h6
            exact ⟨ts, by rw [ha, e]; rfl⟩

theorem not_msg {ts : List Tok} (hok : ∀ t ∈ ts, TokOk t) {z : Bytes} : text ts ≠ msg ++ z := by
  intro h
  cases ts with
  | nil => simp [text, msg] at h
  | cons t ts =>
    rw [text_cons] at h
    cases t with
    | str s => exact absurd (List.cons.inj h).1 (by decide)
    | raw a =>
      obtain ⟨h1, h2, h3, h4⟩ := hok _ (List.mem_cons_self ..)
      cases a with
      | nil => exact absurd rfl h1
      | cons b a =>
        have hb : b = 0x6D := (List.cons.inj h).1
        subst hb
        exact h3 rfl

/-- Where the text that the handler looks for can be. -/
theorem pattern_tokens {ts : List Tok} (hok : ∀ t ∈ ts, TokOk t) :
    pattern <:+: text ts ↔ ∃ k, Keyish k ∧ [Tok.str k, colon, .str update] <:+: ts := by
  constructor
  · rintro ⟨y, z, h⟩
    rw [List.append_assoc, pattern_eq] at h
    induction ts generalizing y with
    | nil => exact absurd (congrArg List.length h) (by simp [text])
    | cons t ts ih =>
      have hok' : ∀ t ∈ ts, TokOk t := fun t ht => hok t (List.mem_cons_of_mem _ ht)
      have again : ∀ y', text ts = y' ++ 0x22 :: (msg ++ 0x22 :: (0x3A :: 0x22 :: (update ++ 0x22 :: z))) →
          ∃ k, Keyish k ∧ [Tok.str k, colon, .str update] <:+: t :: ts := by
        intro y' hy
        obtain ⟨k, h1, h2⟩ := ih hok' y' hy.symm
        exact ⟨k, h1, h2.trans (List.suffix_cons t ts).isInfix⟩
      have fin : ∀ k, Keyish k → t = .str k → text ts = 0x3A :: 0x22 :: (update ++ 0x22 :: z) →
          ∃ k, Keyish k ∧ [Tok.str k, colon, .str update] <:+: t :: ts := by
        intro k hk ht hx
        obtain ⟨post, hp⟩ := after_key hok' hx
        exact ⟨k, hk, [], post, by rw [ht, hp]; rfl⟩
      rw [text_cons] at h
      cases t with
      | raw a =>
        obtain ⟨h1, h2, h3, h4⟩ := hok _ (List.mem_cons_self ..)
        simp only [tokText] at h
        rcases List.append_eq_append_iff.mp h.symm with ⟨y', e1, e2⟩ | ⟨t', e1, e2⟩
        · exact again y' e2
        · cases t' with
          | nil => exact again [] e2.symm
          | cons b t' =>
            have hb : b = 0x22 := (List.cons.inj e2).1.symm
            subst hb
            exact absurd rfl (h2 0x22 (by rw [e1]; simp))
      | str s =>
        simp only [tokText, List.cons_append, List.append_assoc, List.nil_append] at h
        cases y with
        | nil =>
          obtain ⟨e1, e2⟩ := (quoted_quote s).close plain_msg (List.cons.inj h).2.symm
          exact fin s (Or.inl e1) rfl e2
        | cons b y =>
          rcases (quoted_quote s).inside plain_msg (List.cons.inj h).2.symm with ⟨s1, e1, e2⟩ | e | ⟨y', e⟩
          · exact fin s (Or.inr ⟨s1, e1⟩) rfl e2
          · exact absurd e (not_msg hok')
          · exact again y' e
  · rintro ⟨k, hk, pre, post, rfl⟩
    have hq : quote update = update := by decide +kernel
    have hsuf : ∃ y, tokText (.str k) = y ++ 0x22 :: (msg ++ [0x22]) := by
      rcases hk with rfl | ⟨t, rfl⟩
      · refine ⟨[], ?_⟩
        simp only [tokText, show quote msg = msg by decide +kernel]
        rfl
      · obtain ⟨q1, q2, e, hq2⟩ := (quoted_quote (t ++ 0x22 :: msg)).split rfl
        have := hq2.safe (by decide)
        subst this
        refine ⟨0x22 :: (q1 ++ [0x5C]), ?_⟩
        simp only [tokText, e]
        simp
    obtain ⟨y, hy⟩ := hsuf
    refine ⟨text pre ++ y, text post, ?_⟩
    rw [List.append_assoc (text pre ++ y), pattern_eq]
    have : text (pre ++ [Tok.str k, colon, .str update] ++ post) =
        text pre ++ (tokText (.str k) ++ (tokText colon ++ (tokText (.str update) ++ text post))) := by
      simp [text]
    rw [this, hy]
    simp [tokText, colon, hq]

/-! ### Members of JSON values -/

mutual
/-- Object members at any depth: some object in the value has the key with the value. -/
def HasMember (k : Bytes) (x : Json) : Json → Prop
  | .atom _ => False
  | .str _ => False
  | .arr l => InItems k x l
  | .obj l => InMembers k x l
def InItems (k : Bytes) (x : Json) : Items → Prop
  | .nil => False
  | .cons j l => HasMember k x j ∨ InItems k x l
def InMembers (k : Bytes) (x : Json) : Members → Prop
  | .nil => False
  | .cons k' j l => (k' = k ∧ j = x) ∨ HasMember k x j ∨ InMembers k x l
end

/-- `null`, `true`, `false`, or a number: digits, signs, points and exponents. -/
def Atom (a : Bytes) : Prop :=
  a = [0x6E, 0x75, 0x6C, 0x6C] ∨ a = [0x74, 0x72, 0x75, 0x65] ∨ a = [0x66, 0x61, 0x6C, 0x73, 0x65] ∨
  (a ≠ [] ∧ ∀ b ∈ a, (0x30 ≤ b.toNat ∧ b.toNat ≤ 0x39) ∨ b ∈ [0x2B, 0x2D, 0x2E, 0x65, 0x45])

mutual
/-- The atoms of a value are what JSON allows. -/
def WellFormed : Json → Prop
  | .atom a => Atom a
  | .str _ => True
  | .arr l => ItemsOk l
  | .obj l => MembersOk l
def ItemsOk : Items → Prop
  | .nil => True
  | .cons j l => WellFormed j ∧ ItemsOk l
def MembersOk : Members → Prop
  | .nil => True
  | .cons _ j l => WellFormed j ∧ MembersOk l
end

theorem Atom.rawOk {a : Bytes} (h : Atom a) : RawOk a ∧ a.head? ≠ some 0x3A := by
  rcases h with rfl | rfl | rfl | ⟨h1, h2⟩
  · unfold RawOk; decide
  · unfold RawOk; decide
  · unfold RawOk; decide
  · have hb : ∀ b ∈ a, b ≠ 0x22 ∧ b ≠ 0x6D ∧ b ≠ 0x3A := by
      intro b hb
      refine ⟨?_, ?_, ?_⟩ <;> (rintro rfl; rcases h2 _ hb with h | h <;> revert h <;> decide)
    cases a with
    | nil => exact absurd rfl h1
    | cons b a =>
      have hh := hb b (List.mem_cons_self ..)
      refine ⟨⟨h1, fun c hc => (hb c hc).1, ?_, ?_⟩, ?_⟩
      · intro e; exact hh.2.1 (Option.some.inj e)
      · intro e; exact absurd (Option.some.inj e) hh.2.2
      · intro e; exact hh.2.2 (Option.some.inj e)

mutual
theorem toks_ok : ∀ j, WellFormed j → ∀ t ∈ toks j, TokOk t
  | .atom a, h => by
    intro t ht
    simp only [toks, List.mem_singleton] at ht
    subst ht
    exact (Atom.rawOk h).1
  | .str s, _ => by
    intro t ht
    simp only [toks, List.mem_singleton] at ht
    subst ht
    trivial
  | .arr l, h => by
    intro t ht
    simp only [toks, List.mem_cons, List.mem_append, List.not_mem_nil, or_false] at ht
    rcases ht with rfl | ht | rfl
    · unfold TokOk RawOk; decide
    · exact items_ok l h t ht
    · unfold TokOk RawOk; decide
  | .obj l, h => by
    intro t ht
    simp only [toks, List.mem_cons, List.mem_append, List.not_mem_nil, or_false] at ht
    rcases ht with rfl | ht | rfl
    · unfold TokOk RawOk; decide
    · exact members_ok l h t ht
    · unfold TokOk RawOk; decide
theorem items_ok : ∀ l, ItemsOk l → ∀ t ∈ itemToks l, TokOk t
  | .nil, _ => by intro t ht; simp [itemToks] at ht
  | .cons j l, h => by
    intro t ht
    simp only [itemToks, List.mem_append] at ht
    rcases ht with ht | ht
    · exact toks_ok j h.1 t ht
    · exact moreItems_ok l h.2 t ht
theorem moreItems_ok : ∀ l, ItemsOk l → ∀ t ∈ moreItems l, TokOk t
  | .nil, _ => by intro t ht; simp [moreItems] at ht
  | .cons j l, h => by
    intro t ht
    simp only [moreItems, List.mem_cons, List.mem_append] at ht
    rcases ht with rfl | ht | ht
    · unfold TokOk RawOk comma; decide
    · exact toks_ok j h.1 t ht
    · exact moreItems_ok l h.2 t ht
theorem members_ok : ∀ l, MembersOk l → ∀ t ∈ memberToks l, TokOk t
  | .nil, _ => by intro t ht; simp [memberToks] at ht
  | .cons k j l, h => by
    intro t ht
    simp only [memberToks, List.mem_cons, List.mem_append] at ht
    rcases ht with rfl | rfl | ht | ht
    · trivial
    · unfold TokOk RawOk colon; decide
    · exact toks_ok j h.1 t ht
    · exact moreMembers_ok l h.2 t ht
theorem moreMembers_ok : ∀ l, MembersOk l → ∀ t ∈ moreMembers l, TokOk t
  | .nil, _ => by intro t ht; simp [moreMembers] at ht
  | .cons k j l, h => by
    intro t ht
    simp only [moreMembers, List.mem_cons, List.mem_append] at ht
    rcases ht with rfl | rfl | rfl | ht | ht
    · unfold TokOk RawOk comma; decide
    · trivial
    · unfold TokOk RawOk colon; decide
    · exact toks_ok j h.1 t ht
    · exact moreMembers_ok l h.2 t ht
end

/-! ### A string, a colon and a string among the pieces -/

def triple (k v : Bytes) : List Tok := [.str k, colon, .str v]

theorem toks_ne (j : Json) : toks j ≠ [] := by cases j <;> simp [toks]

theorem toks_head (j : Json) (h : WellFormed j) : (toks j).head? ≠ some colon := by
  cases j with
  | atom a =>
    simp only [toks, List.head?_cons]
    intro e
    have : a = [0x3A] := Tok.raw.inj (Option.some.inj e)
    exact (Atom.rawOk h).2 (by rw [this]; rfl)
  | str s => simp [toks, colon]
  | arr l => simp only [toks, List.head?_cons]; decide
  | obj l => simp only [toks, List.head?_cons]; decide

theorem toks_last (j : Json) (h : WellFormed j) : (toks j).getLast? ≠ some colon := by
  cases j with
  | atom a =>
    simp only [toks, List.getLast?_singleton]
    intro e
    have : a = [0x3A] := Tok.raw.inj (Option.some.inj e)
    exact (Atom.rawOk h).2 (by rw [this]; rfl)
  | str s => simp [toks, colon]
  | arr l =>
    simp only [toks]
    rw [← List.cons_append, List.getLast?_append_of_ne_nil _ (by simp)]
    decide
  | obj l =>
    simp only [toks]
    rw [← List.cons_append, List.getLast?_append_of_ne_nil _ (by simp)]
    decide

theorem toks_str {j : Json} {v : Bytes} (h : (toks j).head? = some (.str v)) : j = .str v := by
  cases j with
  | atom a => simp [toks] at h
  | str s => simp only [toks, List.head?_cons, Option.some.injEq, Tok.str.injEq] at h; rw [h]
  | arr l => simp [toks] at h
  | obj l => simp [toks] at h

/-- No triple lies across a boundary that has no colon next to it. -/
theorem triple_append {a b : List Tok} {k v : Bytes} (ha : a.getLast? ≠ some colon) (hb : b.head? ≠ some colon)
    (h : triple k v <:+: a ++ b) : triple k v <:+: a ∨ triple k v <:+: b := by
  obtain ⟨x, y, e⟩ := h
  rw [List.append_assoc] at e
  rcases List.append_eq_append_iff.mp e with ⟨a', h1, h2⟩ | ⟨x', h1, h2⟩
  · -- x ends before a does
    unfold triple at h2
    cases a' with
    | nil => exact Or.inr ⟨[], y, by simpa [triple] using h2⟩
    | cons t1 a' =>
      obtain ⟨e1, h2⟩ := List.cons.inj h2
      cases a' with
      | nil =>
        exfalso
        apply hb
        have h2 : colon :: (.str v :: y) = b := h2
        rw [← h2]; rfl
      | cons t2 a' =>
        obtain ⟨e2, h2⟩ := List.cons.inj h2
        cases a' with
        | nil =>
          exfalso
          apply ha
          rw [h1, ← e1, ← e2]
          simp
        | cons t3 a' =>
          obtain ⟨e3, h2⟩ := List.cons.inj h2
          left
          refine ⟨x, a', ?_⟩
          rw [h1, ← e1, ← e2, ← e3]
          simp [triple]
  · right
    exact ⟨x', y, by rw [h2, List.append_assoc]⟩

theorem triple_cons {t : Tok} {b : List Tok} {k v : Bytes} (ht : ∀ s, t ≠ .str s) (h : triple k v <:+: t :: b) :
    triple k v <:+: b := by
  rcases List.infix_cons_iff.mp h with h | h
  · obtain ⟨y, e⟩ := h
    exact absurd (List.cons.inj e).1.symm (ht k)
  · exact h

theorem triple_single {t : Tok} {k v : Bytes} : ¬ triple k v <:+: [t] := by
  intro h
  have := h.length_le
  simp [triple] at this

theorem triple_nil {k v : Bytes} : ¬ triple k v <:+: [] := by
  intro h
  have := h.length_le
  simp [triple] at this

/-- A member: its key with its value, or inside its value, or later. -/
theorem triple_member {k' : Bytes} {j : Json} {r : List Tok} {k v : Bytes} (hj : WellFormed j)
    (hr : r.head? ≠ some colon) (h : triple k v <:+: .str k' :: colon :: (toks j ++ r)) :
    (k' = k ∧ j = .str v) ∨ triple k v <:+: toks j ∨ triple k v <:+: r := by
  rcases List.infix_cons_iff.mp h with h | h
  · left
    obtain ⟨y, e⟩ := h
    obtain ⟨e1, e⟩ := List.cons.inj e
    obtain ⟨-, e⟩ := List.cons.inj e
    refine ⟨(Tok.str.inj e1).symm, toks_str (v := v) ?_⟩
    have := toks_ne j
    cases hj : toks j with
    | nil => exact absurd hj this
    | cons t ts =>
      rw [hj] at e
      rw [← (List.cons.inj e).1]; rfl
  · right
    exact triple_append (toks_last j hj) hr (triple_cons (by simp [colon]) h)

theorem more_head (l : Members) : (moreMembers l).head? ≠ some colon ∧ (moreMembers l ++ [Tok.raw [0x7D]]).head? ≠ some colon := by
  cases l with
  | nil => simp only [moreMembers]; decide
  | cons k j l => simp only [moreMembers, List.cons_append, List.head?_cons]; decide

theorem moreI_head (l : Items) : (moreItems l).head? ≠ some colon ∧ (moreItems l ++ [Tok.raw [0x5D]]).head? ≠ some colon := by
  cases l with
  | nil => simp only [moreItems]; decide
  | cons j l => simp only [moreItems, List.cons_append, List.head?_cons]; decide

mutual
theorem triple_toks {k v : Bytes} : ∀ j, WellFormed j → triple k v <:+: toks j → HasMember k (.str v) j
  | .atom a, _, h => absurd h triple_single
  | .str s, _, h => absurd h triple_single
  | .arr l, w, h => by
    simp only [toks] at h
    have h := triple_cons (by simp) h
    cases l with
    | nil => exact absurd h triple_single
    | cons j l =>
      simp only [itemToks, List.append_assoc] at h
      rcases triple_append (toks_last j w.1) (moreI_head l).2 h with h | h
      · exact Or.inl (triple_toks j w.1 h)
      · exact Or.inr (triple_moreItems l w.2 h)
  | .obj l, w, h => by
    simp only [toks] at h
    have h := triple_cons (by simp) h
    cases l with
    | nil => exact absurd h triple_single
    | cons k' j l =>
      simp only [memberToks, List.cons_append, List.append_assoc] at h
      rcases triple_member w.1 (more_head l).2 h with h | h | h
      · exact Or.inl h
      · exact Or.inr (Or.inl (triple_toks j w.1 h))
      · exact Or.inr (Or.inr (triple_moreMembers l w.2 h))
theorem triple_moreItems {k v : Bytes} : ∀ l, ItemsOk l → triple k v <:+: moreItems l ++ [.raw [0x5D]] →
    InItems k (.str v) l
  | .nil, _, h => absurd h triple_single
  | .cons j l, w, h => by
    simp only [moreItems, List.cons_append, List.append_assoc] at h
    have h := triple_cons (by simp [comma]) h
    rcases triple_append (toks_last j w.1) (moreI_head l).2 h with h | h
    · exact Or.inl (triple_toks j w.1 h)
    · exact Or.inr (triple_moreItems l w.2 h)
theorem triple_moreMembers {k v : Bytes} : ∀ l, MembersOk l → triple k v <:+: moreMembers l ++ [.raw [0x7D]] →
    InMembers k (.str v) l
  | .nil, _, h => absurd h triple_single
  | .cons k' j l, w, h => by
    simp only [moreMembers, List.cons_append, List.append_assoc] at h
    have h := triple_cons (by simp [comma]) h
    rcases triple_member w.1 (more_head l).2 h with h | h | h
    · exact Or.inl h
    · exact Or.inr (Or.inl (triple_toks j w.1 h))
    · exact Or.inr (Or.inr (triple_moreMembers l w.2 h))
end

mutual
theorem toks_triple {k v : Bytes} : ∀ j, HasMember k (.str v) j → triple k v <:+: toks j
  | .atom a, h => h.elim
  | .str s, h => h.elim
  | .arr l, h => by
    simp only [toks]
    refine List.IsInfix.trans ?_ (List.suffix_cons _ _).isInfix
    refine List.IsInfix.trans ?_ (List.prefix_append _ _).isInfix
    cases l with
    | nil => exact h.elim
    | cons j l =>
      simp only [itemToks]
      rcases h with h | h
      · exact (toks_triple j h).trans (List.prefix_append _ _).isInfix
      · exact (moreItems_triple l h).trans (List.suffix_append _ _).isInfix
  | .obj l, h => by
    simp only [toks]
    refine List.IsInfix.trans ?_ (List.suffix_cons _ _).isInfix
    refine List.IsInfix.trans ?_ (List.prefix_append _ _).isInfix
    cases l with
    | nil => exact h.elim
    | cons k' j l =>
      simp only [memberToks]
      rcases h with ⟨rfl, rfl⟩ | h | h
      · exact ⟨[], moreMembers l, by simp [triple, toks]⟩
      · exact (toks_triple j h).trans ((List.prefix_append _ _).isInfix.trans
          ((List.suffix_cons _ _).trans (List.suffix_cons _ _)).isInfix)
      · exact (moreMembers_triple l h).trans ((List.suffix_append _ _).isInfix.trans
          ((List.suffix_cons _ _).trans (List.suffix_cons _ _)).isInfix)
theorem moreItems_triple {k v : Bytes} : ∀ l, InItems k (.str v) l → triple k v <:+: moreItems l
  | .nil, h => h.elim
  | .cons j l, h => by
    simp only [moreItems]
    refine List.IsInfix.trans ?_ (List.suffix_cons _ _).isInfix
    rcases h with h | h
    · exact (toks_triple j h).trans (List.prefix_append _ _).isInfix
    · exact (moreItems_triple l h).trans (List.suffix_append _ _).isInfix
theorem moreMembers_triple {k v : Bytes} : ∀ l, InMembers k (.str v) l → triple k v <:+: moreMembers l
  | .nil, h => h.elim
  | .cons k' j l, h => by
    simp only [moreMembers]
    refine List.IsInfix.trans ?_ (List.suffix_cons _ _).isInfix
    rcases h with ⟨rfl, rfl⟩ | h | h
    · exact ⟨[], moreMembers l, by simp [triple, toks]⟩
    · exact (toks_triple j h).trans ((List.prefix_append _ _).isInfix.trans
        ((List.suffix_cons _ _).trans (List.suffix_cons _ _)).isInfix)
    · exact (moreMembers_triple l h).trans ((List.suffix_append _ _).isInfix.trans
        ((List.suffix_cons _ _).trans (List.suffix_cons _ _)).isInfix)
end

/-! ### C118 -/

/-- C118: a message printed by Go makes the handler refresh the scoreboard of its contest exactly if it is for a contest
and some object in it has the value `/run/update/` under the key `message` (or under a key that ends in `"message`).
What the strings in it say otherwise does not matter. -/
theorem C118_exact {j : Json} (hj : WellFormed j) (contest c : Bytes) :
    refresh contest (print j) = some c ↔
      c = contest ∧ contest ≠ [] ∧ ∃ k, (k = [0x6D, 0x65, 0x73, 0x73, 0x61, 0x67, 0x65] ∨
            ∃ t, k = t ++ [0x22, 0x6D, 0x65, 0x73, 0x73, 0x61, 0x67, 0x65]) ∧
          HasMember k (.str [0x2F, 0x72, 0x75, 0x6E, 0x2F, 0x75, 0x70, 0x64, 0x61, 0x74, 0x65, 0x2F]) j := by
  have key : contains (print j) pattern = true ↔ ∃ k, Keyish k ∧ HasMember k (.str update) j := by
    rw [contains_iff]
    unfold print
    rw [pattern_tokens (toks_ok j hj)]
    constructor
    · rintro ⟨k, h1, h2⟩
      exact ⟨k, h1, triple_toks j hj h2⟩
    · rintro ⟨k, h1, h2⟩
      exact ⟨k, h1, toks_triple j h2⟩
  have hlen : (decide (contest.length > 0)) = true ↔ contest ≠ [] := by
    rw [decide_eq_true_iff, gt_iff_lt, List.length_pos_iff]
  have hand : (decide (contest.length > 0) && contains (print j) pattern) = true ↔
      contest ≠ [] ∧ ∃ k, Keyish k ∧ HasMember k (.str update) j := by
    rw [Bool.and_eq_true, hlen, key]
  unfold refresh
  constructor
  · intro h
    by_cases hc : (decide (contest.length > 0) && contains (print j) pattern) = true
    · rw [if_pos hc] at h
      exact ⟨(Option.some.inj h).symm, hand.mp hc⟩
    · rw [if_neg hc] at h; cases h
  · rintro ⟨rfl, h⟩
    rw [if_pos (hand.mpr h)]

theorem C118_exact_iff {j : Json} (hj : WellFormed j) {contest : Bytes} (hc : contest ≠ []) :
    refresh contest (print j) = some contest ↔ ∃ k, Keyish k ∧ HasMember k (.str update) j :=
  (C118_exact hj contest contest).trans
    ⟨fun ⟨_, _, h⟩ => h, fun h => ⟨rfl, hc, h⟩⟩

/-- The members of an object, in order. -/
def Members.toList : Members → List (Bytes × Json)
  | .nil => []
  | .cons k j l => (k, j) :: l.toList

theorem inMembers_iff (k : Bytes) (x : Json) : ∀ l : Members, InMembers k x l ↔
      (k, x) ∈ l.toList ∨ ∃ p ∈ l.toList, HasMember k x p.2
  | .nil => by simp [InMembers, Members.toList]
  | .cons k' j l => by
    simp only [InMembers, Members.toList, inMembers_iff k x l, List.mem_cons, Prod.mk.injEq, exists_eq_or_imp]
    constructor
    · rintro (⟨rfl, rfl⟩ | h | h | h)
      · exact Or.inl (Or.inl ⟨rfl, rfl⟩)
      · exact Or.inr (Or.inl h)
      · exact Or.inl (Or.inr h)
      · exact Or.inr (Or.inr h)
    · rintro ((⟨rfl, rfl⟩ | h) | h | h)
      · exact Or.inl ⟨rfl, rfl⟩
      · exact Or.inr (Or.inr (Or.inl h))
      · exact Or.inr (Or.inl h)
      · exact Or.inr (Or.inr (Or.inr h))

/-- C118 for objects whose only member that could be taken for it is the one called `message` at the top, as in all
messages of the grader: the scoreboard is refreshed exactly if that is `/run/update/`. -/
theorem C118_top {l : Members} (hl : MembersOk l) {contest : Bytes} (hc : contest ≠ [])
    (htop : ∀ p ∈ l.toList, Keyish p.1 → p.1 = msg)
    (hdeep : ∀ p ∈ l.toList, ∀ k x, Keyish k → ¬ HasMember k x p.2) :
    refresh contest (print (.obj l)) = some contest ↔ (msg, Json.str update) ∈ l.toList := by
  rw [C118_exact_iff (j := .obj l) hl hc]
  constructor
  · rintro ⟨k, hk, h⟩
    rcases (inMembers_iff k _ l).mp h with h | ⟨p, hp, h⟩
    · rw [← htop _ h hk]; exact h
    · exact absurd h (hdeep p hp k _ hk)
  · intro h
    exact ⟨msg, Or.inl rfl, (inMembers_iff _ _ l).mpr (Or.inl h)⟩

/-! ### The grader's announcements -/

/-- An object from a list of members. -/
def members : List (Bytes × Json) → Members
  | [] => .nil
  | (k, j) :: l => .cons k j (members l)

def key (s : String) : Bytes := s.toList.map fun c => UInt8.ofNat c.toNat

/-- The fields of `serializedRun` (/repo/cmd/omegaup-grader/frontend_handler.go:133-149), in order; `omitempty` leaves
out the contest and the problem set if they are nil. Numbers are given as they are printed. -/
structure SerializedRun where
  user : Bytes
  contest : Option Bytes
  problemset : Option Bytes
  problem : Bytes
  guid : Bytes
  runtime : Bytes
  penalty : Bytes
  memory : Bytes
  score : Bytes
  contestScore : Bytes
  status : Bytes
  verdict : Bytes
  submitDelay : Bytes
  time : Bytes
  language : Bytes

/-- `json.Marshal(&msg)` (cmd/omegaup-grader/frontend_handler.go:150-172, 200): the message about a finished run. -/
def announcement (r : SerializedRun) : Json :=
  .obj (members [(key "message", .str (key "/run/update/")), (key "run", .obj (members (
    [(key "username", .str r.user)] ++
    (r.contest.toList.map fun c => (key "contest_alias", .str c)) ++
    (r.problemset.toList.map fun c => (key "problemset", .atom c)) ++
    [(key "alias", .str r.problem), (key "guid", .str r.guid), (key "runtime", .atom r.runtime),
     (key "penalty", .atom r.penalty), (key "memory", .atom r.memory), (key "score", .atom r.score),
     (key "contest_score", .atom r.contestScore), (key "status", .str r.status), (key "verdict", .str r.verdict),
     (key "submit_delay", .atom r.submitDelay), (key "time", .atom r.time), (key "language", .str r.language)])))])

/-- The numbers are numbers. -/
def SerializedRun.Ok (r : SerializedRun) : Prop :=
  (∀ c ∈ r.problemset, Atom c) ∧ Atom r.runtime ∧ Atom r.penalty ∧ Atom r.memory ∧ Atom r.score ∧
  Atom r.contestScore ∧ Atom r.submitDelay ∧ Atom r.time

theorem membersOk_iff : ∀ l : List (Bytes × Json), MembersOk (members l) ↔ ∀ p ∈ l, WellFormed p.2
  | [] => by simp [members, MembersOk]
  | (k, j) :: l => by simp [members, MembersOk, membersOk_iff l]

theorem announcement_ok {r : SerializedRun} (h : r.Ok) : WellFormed (announcement r) := by
  obtain ⟨h1, h2, h3, h4, h5, h6, h7, h8⟩ := h
  unfold announcement WellFormed
  rw [membersOk_iff]
  intro p hp
  simp only [List.mem_cons, List.not_mem_nil, or_false] at hp
  rcases hp with rfl | rfl
  · trivial
  · show MembersOk _
    rw [membersOk_iff]
    intro p hp
    simp only [List.mem_append, List.mem_cons, List.not_mem_nil, or_false, List.mem_map, Option.mem_toList] at hp
    rcases hp with ((rfl | ⟨c, -, rfl⟩) | ⟨c, hc, rfl⟩) | rfl | rfl | rfl | rfl | rfl | rfl | rfl | rfl | rfl | rfl | rfl | rfl
    · trivial
    · trivial
    · exact h1 c hc
    · trivial
    · trivial
    · exact h2
    · exact h3
    · exact h4
    · exact h5
    · exact h6
    · trivial
    · trivial
    · exact h7
    · exact h8
    · trivial

/-- C118: every announcement of the grader about a run of a contest refreshes that contest's scoreboard, whatever the
names in it. -/
theorem C118_grader {r : SerializedRun} (h : r.Ok) {contest : Bytes} (hc : contest ≠ []) :
    refresh contest (print (announcement r)) = some contest := by
  rw [C118_exact_iff (announcement_ok h) hc]
  exact ⟨msg, Or.inl rfl, Or.inl ⟨by decide, by
    have : key "/run/update/" = update := by decide
    rw [this]⟩⟩

end Quark.Trigger
