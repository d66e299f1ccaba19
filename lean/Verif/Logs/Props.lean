import Verif.Logs.Model
import Mathlib.Data.List.Basic
import Mathlib.Data.List.Infix

/-!
# The logs of the runners are kept and can be told apart (C141)
-/

namespace Quark.Logs

/-! ## Specification -/

/-- The logs that were uploaded, with the names of their runners, in order. -/
def uploads : List Op → List (Bytes × Bytes)
  | [] => []
  | .text _ :: ops => uploads ops
  | .logs n c :: ops => (n, c) :: uploads ops

/-- What begins a section: 16 equals signs and two spaces. -/
def mark : Bytes := [61, 61, 61, 61, 61, 61, 61, 61, 61, 61, 61, 61, 61, 61, 61, 61, 32, 32]

/-- The last line of the section of a runner: `================ /name  ================`. -/
def lastLine (name : Bytes) : Bytes :=
  [61, 61, 61, 61, 61, 61, 61, 61, 61, 61, 61, 61, 61, 61, 61, 61, 32, 47] ++ name ++
  [32, 32, 61, 61, 61, 61, 61, 61, 61, 61, 61, 61, 61, 61, 61, 61, 61, 61] ++ [10]

/-- The first line of the section of a runner: `================  name  ================`. -/
def firstLine (name : Bytes) : Bytes :=
  mark ++ name ++ [32, 32, 61, 61, 61, 61, 61, 61, 61, 61, 61, 61, 61, 61, 61, 61, 61, 61] ++ [10]

/-- Nothing that could be taken for a delimiter: the names of runners have one line, a runner's logs do not have its
own last line, and the log of the grader between two sections (`soFar` is what there is since the last one) does not
have the mark. -/
def Plain (soFar : Bytes) : List Op → Prop
  | [] => ¬ mark <:+: soFar
  | .text b :: ops => Plain (soFar ++ b) ops
  | .logs n c :: ops => ¬ mark <:+: soFar ∧ (10 : UInt8) ∉ n ∧ ¬ lastLine n <:+: c ∧ Plain [] ops

/-! ## Proofs -/

theorem opening_eq (n : Bytes) : opening n = firstLine n := by
  simp [opening, firstLine, bar, mark]

theorem closing_eq (n : Bytes) : closing n = lastLine n := by
  simp [closing, lastLine, bar]

theorem foldl_apply (ops : List Op) (b : Bytes) : ops.foldl apply b = b ++ log ops := by
  unfold log
  induction ops generalizing b with
  | nil => simp
  | cons o ops ih =>
    simp only [List.foldl_cons]
    rw [ih, ih (apply [] o)]
    cases o <;> simp [apply, appendLogSection]

/-- C141, kept: each upload is in the log whole, between its first and its last line, after everything that was
logged before it and before everything that was logged after. -/
theorem C141_kept (before after : List Op) (n c : Bytes) :
    log (before ++ .logs n c :: after) = log before ++ (firstLine n ++ c ++ lastLine n) ++ log after := by
  have h1 : log (before ++ .logs n c :: after) = (Op.logs n c :: after).foldl apply (log before) := by
    simp [log, List.foldl_append]
  rw [h1, foldl_apply]
  have h2 : log (.logs n c :: after) = (firstLine n ++ c ++ lastLine n) ++ log after := by
    rw [show log (.logs n c :: after) = after.foldl apply (apply [] (.logs n c)) from rfl, foldl_apply]
    simp only [apply, appendLogSection, opening_eq, closing_eq, List.nil_append]
  rw [h2]; simp only [List.append_assoc]

theorem pre3 (a w x : Bytes) : a <+: a ++ w ++ x := ⟨w ++ x, by simp⟩

/-- A word none of whose ends is also a beginning of it is found where it is. -/
theorem first_unique {w : Bytes} (hb : ∀ p, p <+: w → p <:+ w → p ≠ [] → p = w) {a a' x y : Bytes}
    (ha : ¬ w <:+: a) (ha' : ¬ w <:+: a') (he : a ++ w ++ x = a' ++ w ++ y) : a = a' ∧ x = y := by
  by_cases hw : w = []
  · subst hw; exact absurd (List.nil_infix) ha
  have side : ∀ {a d x y : Bytes}, ¬ w <:+: a ++ d → w ++ x = d ++ w ++ y → d = [] := by
    intro a d x y hn he
    by_contra hd
    rcases Nat.lt_or_ge d.length w.length with hl | hl
    · -- the word overlaps itself
      obtain ⟨p, hp⟩ : ∃ p, w = d ++ p := by
        have : d <+: w := List.prefix_of_prefix_length_le
          (pre3 d w y) (he ▸ List.prefix_append _ _) (Nat.le_of_lt hl)
        exact ⟨_, this.choose_spec.symm⟩
      have h1 : p ++ x = w ++ y := by
        rw [hp] at he
        simp only [List.append_assoc] at he
        rw [List.append_cancel_left_eq] at he
        rw [hp, List.append_assoc]; exact he
      have hplen : p.length < w.length := by
        rw [hp, List.length_append]
        have := List.length_pos_iff.mpr hd
        omega
      have hpre : p <+: w := List.prefix_of_prefix_length_le (List.prefix_append p x)
        (h1 ▸ List.prefix_append w y) (Nat.le_of_lt hplen)
      have hsuf : p <:+ w := ⟨d, hp.symm⟩
      have hne : p ≠ [] := by
        rintro rfl
        rw [List.append_nil] at hp
        rw [hp] at hl
        exact Nat.lt_irrefl _ hl
      have := hb p hpre hsuf hne
      rw [this] at hplen
      exact Nat.lt_irrefl _ hplen
    · have : w <+: d := List.prefix_of_prefix_length_le (List.prefix_append w x)
        (he ▸ (pre3 d w y)) hl
      exact hn (this.isInfix.trans (List.suffix_append a d).isInfix)
  rcases Nat.le_total a.length a'.length with hl | hl
  · obtain ⟨d, hd⟩ : a <+: a' := List.prefix_of_prefix_length_le
      (pre3 a w x) (he ▸ pre3 a' w y) hl
    subst hd
    have he' : w ++ x = d ++ w ++ y := by
      simp only [List.append_assoc, List.append_cancel_left_eq] at he ⊢
      exact he
    have := side ha' he'
    subst this
    simp only [List.nil_append, List.append_cancel_left_eq] at he'
    exact ⟨by simp, he'⟩
  · obtain ⟨d, hd⟩ : a' <+: a := List.prefix_of_prefix_length_le
      (pre3 a' w y) (he ▸ pre3 a w x) hl
    subst hd
    have he' : w ++ y = d ++ w ++ x := by
      simp only [List.append_assoc, List.append_cancel_left_eq] at he ⊢
      exact he.symm
    have := side ha he'
    subst this
    simp only [List.nil_append, List.append_cancel_left_eq] at he'
    exact ⟨by simp, he'.symm⟩

theorem mark_word : ∀ p, p <+: mark → p <:+ mark → p ≠ [] → p = mark := by
  intro p h1 h2 h3
  have all : ∀ p ∈ mark.inits, p ∈ mark.tails → p ≠ [] → p = mark := by decide
  exact all p ((List.mem_inits p mark).mpr h1) ((List.mem_tails p mark).mpr h2) h3

theorem lastLine_word (n : Bytes) (hn : (10 : UInt8) ∉ n) :
    ∀ p, p <+: lastLine n → p <:+ lastLine n → p ≠ [] → p = lastLine n := by
  intro p h1 h2 h3
  obtain ⟨b, hb, hbn⟩ : ∃ b, lastLine n = b ++ [10] ∧ (10 : UInt8) ∉ b := by
    refine ⟨_, rfl, ?_⟩
    simp [hn]
  rw [hb] at h1 h2 ⊢
  -- p ends in a newline
  obtain ⟨q, rfl⟩ : ∃ q, p = q ++ [10] := by
    obtain ⟨u, hu⟩ := h2
    refine ⟨p.dropLast, ?_⟩
    have hl : p.getLast h3 = 10 := by
      have h4 : (u ++ p).getLast (by simp [h3]) = 10 := by simp [hu]
      rwa [List.getLast_append_of_ne_nil _ h3] at h4
    conv => lhs; rw [← List.dropLast_append_getLast h3, hl]
  obtain ⟨v, hv⟩ := h1
  -- and a beginning with a newline is everything
  cases v with
  | nil => simpa using hv
  | cons x v =>
    exfalso
    have hlen := congrArg List.length hv
    simp at hlen
    have : (b ++ [10])[q.length]? = some 10 := by rw [← hv]; simp
    rw [List.getElem?_append_left (by omega)] at this
    exact hbn (List.mem_of_getElem? this)

theorem log_cons (o : Op) (ops : List Op) : log (o :: ops) = apply [] o ++ log ops := by
  rw [show log (o :: ops) = ops.foldl apply (apply [] o) from rfl, foldl_apply]

/-- The first section of a log, if there is one. -/
theorem Plain.first {ops : List Op} {soFar : Bytes} (h : Plain soFar ops) :
    (uploads ops = [] ∧ ¬ mark <:+: soFar ++ log ops) ∨
    ∃ t n c rest, uploads ops = (n, c) :: uploads rest ∧ rest.length < ops.length ∧
      soFar ++ log ops = t ++ (firstLine n ++ c ++ lastLine n ++ log rest) ∧
      ¬ mark <:+: t ∧ (10 : UInt8) ∉ n ∧ ¬ lastLine n <:+: c ∧ Plain [] rest := by
  induction ops generalizing soFar with
  | nil => left; exact ⟨rfl, by simpa [log, Plain] using h⟩
  | cons o ops ih =>
    rw [log_cons]
    cases o with
    | text b =>
      rcases ih h with ⟨h1, h2⟩ | ⟨t, n, c, rest, h1, h2, h3, h4⟩
      · left; exact ⟨h1, by simpa [apply] using h2⟩
      · right
        refine ⟨t, n, c, rest, h1, Nat.lt_succ_of_lt h2, ?_, h4⟩
        rw [← h3]; simp [apply]
    | logs n c =>
      right
      obtain ⟨h1, h2, h3, h4⟩ := h
      refine ⟨soFar, n, c, ops, rfl, Nat.lt_succ_self _, ?_, h1, h2, h3, h4⟩
      simp only [apply, appendLogSection, opening_eq, closing_eq, List.nil_append, List.append_assoc]

/-- Lines are determined by the text. -/
theorem line_unique {a b x y : Bytes} (ha : (10 : UInt8) ∉ a) (hb : (10 : UInt8) ∉ b)
    (h : a ++ [10] ++ x = b ++ [10] ++ y) : a = b ∧ x = y := by
  refine first_unique (w := [10]) ?_ ?_ ?_ h
  · intro p h1 _ h3
    have h1 := (List.mem_inits p [10]).mpr h1
    simp [List.inits] at h1
    rcases h1 with rfl | rfl
    · exact absurd rfl h3
    · rfl
  · intro hi; exact ha (hi.subset (by simp))
  · intro hi; exact hb (hi.subset (by simp))

theorem firstLine_unique {n n' x y : Bytes} (hn : (10 : UInt8) ∉ n) (hn' : (10 : UInt8) ∉ n')
    (h : firstLine n ++ x = firstLine n' ++ y) : n = n' ∧ x = y := by
  unfold firstLine at h
  obtain ⟨h1, h2⟩ := line_unique (by simp [mark, hn]) (by simp [mark, hn']) h
  simp only [List.append_assoc, List.append_cancel_left_eq] at h1
  exact ⟨List.append_cancel_right h1, h2⟩

/-- C141, told apart: if nothing in it can be taken for a delimiter, the log says which runners uploaded logs, in
which order, and what they were. -/
theorem C141_told_apart {ops ops' : List Op} (h : Plain [] ops) (h' : Plain [] ops') (heq : log ops = log ops') :
    uploads ops = uploads ops' := by
  induction hn : ops.length using Nat.strongRecOn generalizing ops ops' with
  | _ m ih =>
    rcases h.first with ⟨h1, h2⟩ | ⟨t, n, c, rest, h1, hlen, h3, h4, h5, h6, h7⟩ <;>
      rcases h'.first with ⟨k1, k2⟩ | ⟨t', n', c', rest', k1, -, k3, k4, k5, k6, k7⟩
    · rw [h1, k1]
    · rw [List.nil_append] at h2 k3
      rw [heq, k3] at h2
      exact absurd ⟨t', n' ++ [32, 32, 61, 61, 61, 61, 61, 61, 61, 61, 61, 61, 61, 61, 61, 61, 61, 61] ++ [10] ++ c' ++
        lastLine n' ++ log rest', by simp only [firstLine, List.append_assoc]⟩ h2
    · rw [List.nil_append] at h3 k2
      rw [← heq, h3] at k2
      exact absurd ⟨t, n ++ [32, 32, 61, 61, 61, 61, 61, 61, 61, 61, 61, 61, 61, 61, 61, 61, 61, 61] ++ [10] ++ c ++
        lastLine n ++ log rest, by simp only [firstLine, List.append_assoc]⟩ k2
    · rw [List.nil_append] at h3 k3
      have he : t ++ mark ++ (n ++ [32, 32, 61, 61, 61, 61, 61, 61, 61, 61, 61, 61, 61, 61, 61, 61, 61, 61] ++ [10] ++
          (c ++ lastLine n ++ log rest)) =
        t' ++ mark ++ (n' ++ [32, 32, 61, 61, 61, 61, 61, 61, 61, 61, 61, 61, 61, 61, 61, 61, 61, 61] ++ [10] ++
          (c' ++ lastLine n' ++ log rest')) := by
        have := h3.symm.trans (heq.trans k3)
        simpa only [firstLine, List.append_assoc] using this
      obtain ⟨-, he⟩ := first_unique mark_word h4 k4 he
      have he : firstLine n ++ (c ++ lastLine n ++ log rest) = firstLine n' ++ (c' ++ lastLine n' ++ log rest') := by
        simpa only [firstLine, List.append_assoc, List.append_cancel_left_eq] using he
      obtain ⟨rfl, he⟩ := firstLine_unique h5 k5 he
      obtain ⟨rfl, he'⟩ := first_unique (lastLine_word n h5) h6 k6 he
      rw [h1, k1, ih rest.length (by omega) h7 k7 he' rfl]

/-! ## Examples -/

/-- Two runners tried the run; the second one's logs do not end in a newline. -/
example : Plain [] [.text [72, 10], .logs [65] [120, 10], .text [61, 61], .logs [66] [121]] ∧
    uploads [.text [72, 10], .logs [65] [120, 10], .text [61, 61], .logs [66] [121]] =
      [([65], [120, 10]), ([66], [121])] := by
  refine ⟨?_, rfl⟩
  simp only [Plain]
  decide +kernel

/-- Without the condition, a runner can make its logs look like those of two: nothing in them is escaped. -/
theorem C141_forged : ∃ ops ops' : List Op, log ops = log ops' ∧ uploads ops = [([65], [120, 10] ++
      lastLine [65] ++ firstLine [66] ++ [121, 10] ++ lastLine [66] ++ firstLine [65])] ∧
    uploads ops' = [([65], [120, 10]), ([66], [121, 10]), ([65], [])] := by
  refine ⟨[.logs [65] _], [.logs [65] [120, 10], .logs [66] [121, 10], .logs [65] []], ?_, rfl, rfl⟩
  decide +kernel

end Quark.Logs
