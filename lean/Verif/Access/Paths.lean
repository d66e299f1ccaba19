import Verif.Access.Props
import Mathlib.Tactic.IntervalCases
import Mathlib.Data.List.TakeWhile

/-! # What the paths of the runners' port mean (C167, C168) -/

namespace Quark.Access

open Quark.Path Spec

/-! ## Searching -/

/-- What a search finds is at the first place where the text stands and the rest fits. -/
theorem search_some {α : Type} {start : List Char} {rest : List Char → Option α} (hstart : start ≠ []) {s : List Char}
    {a : α} : search start rest s = some a ↔
      ∃ pre t, s = pre ++ start ++ t ∧ rest t = some a ∧
        ∀ pre' t', s = pre' ++ start ++ t' → pre'.length < pre.length → rest t' = none := by
  induction s with
  | nil =>
    simp only [search, false_iff, reduceCtorEq]
    rintro ⟨pre, t, h, _⟩
    have : start = [] := by
      have := congrArg List.length h
      simp at this
      exact List.length_eq_zero_iff.1 (by omega)
    exact hstart this
  | cons c s ih =>
    have here : ∀ t', c :: s = [] ++ start ++ t' ↔ (start.isPrefixOf (c :: s) = true ∧ t' = (c :: s).drop start.length) := by
      intro t'
      simp only [List.nil_append]
      rw [List.isPrefixOf_iff_prefix]
      constructor
      · intro h
        exact ⟨⟨t', h.symm⟩, by rw [h]; simp⟩
      · rintro ⟨⟨u, hu⟩, rfl⟩
        rw [← hu]; simp
    by_cases hp : start.isPrefixOf (c :: s) = true
    · cases hr : rest ((c :: s).drop start.length) with
      | some b =>
        have : search start rest (c :: s) = some b := by rw [search, if_pos hp, hr]
        rw [this, Option.some.injEq]
        constructor
        · rintro rfl
          exact ⟨[], _, (here _).2 ⟨hp, rfl⟩, hr, by simp⟩
        · rintro ⟨pre, t, h1, h2, h3⟩
          by_cases h0 : pre = []
          · subst h0
            rw [((here t).1 h1).2, hr] at h2
            exact Option.some.inj h2
          · have := h3 [] _ ((here _).2 ⟨hp, rfl⟩) (List.length_pos_of_ne_nil h0)
            rw [hr] at this; simp at this
      | none =>
        have : search start rest (c :: s) = search start rest s := by rw [search, if_pos hp, hr]
        rw [this, ih]
        constructor
        · rintro ⟨pre, t, h1, h2, h3⟩
          refine ⟨c :: pre, t, by rw [h1]; simp, h2, fun pre' t' he hl => ?_⟩
          cases pre' with
          | nil => rw [((here t').1 he).2]; exact hr
          | cons d pre' =>
            simp only [List.cons_append, List.cons.injEq] at he
            exact h3 pre' t' he.2 (by simpa using hl)
        · rintro ⟨pre, t, h1, h2, h3⟩
          cases pre with
          | nil => rw [((here t).1 h1).2, hr] at h2; simp at h2
          | cons d pre =>
            simp only [List.cons_append, List.cons.injEq] at h1
            refine ⟨pre, t, h1.2, h2, fun pre' t' he hl => h3 (c :: pre') t' (by rw [he]; simp) (by simpa using hl)⟩
    · have : search start rest (c :: s) = search start rest s := by rw [search, if_neg hp]
      rw [this, ih]
      constructor
      · rintro ⟨pre, t, h1, h2, h3⟩
        refine ⟨c :: pre, t, by rw [h1]; simp, h2, fun pre' t' he hl => ?_⟩
        cases pre' with
        | nil => exact absurd ((here t').1 he).1 hp
        | cons d pre' =>
          simp only [List.cons_append, List.cons.injEq] at he
          exact h3 pre' t' he.2 (by simpa using hl)
      · rintro ⟨pre, t, h1, h2, h3⟩
        cases pre with
        | nil => exact absurd ((here t).1 h1).1 hp
        | cons d pre =>
          simp only [List.cons_append, List.cons.injEq] at h1
          refine ⟨pre, t, h1.2, h2, fun pre' t' he hl => h3 (c :: pre') t' (by rw [he]; simp) (by simpa using hl)⟩

/-! ## Characters -/

theorem char_cases {c lo hi : Char} (h1 : lo ≤ c) (h2 : c ≤ hi) : lo.toNat ≤ c.toNat ∧ c.toNat ≤ hi.toNat :=
  ⟨h1, h2⟩

theorem isDigit_iff {c : Char} : isDigit c = true ↔ c ∈ "0123456789".toList := by
  constructor
  · intro h
    simp only [isDigit, Bool.and_eq_true, decide_eq_true_eq] at h
    obtain ⟨h1, h2⟩ := char_cases h.1 h.2
    have e : c = Char.ofNat c.toNat := (Char.ofNat_toNat c).symm
    rw [e]
    revert h1 h2
    rw [show ('0' : Char).toNat = 48 from rfl, show ('9' : Char).toNat = 57 from rfl]
    generalize c.toNat = n
    intro h1 h2
    interval_cases n <;> decide
  · intro h
    have : ∀ c ∈ "0123456789".toList, isDigit c = true := by decide
    exact this c h

theorem isHex_iff {c : Char} : isHex c = true ↔ c ∈ "0123456789abcdef".toList := by
  constructor
  · intro h
    simp only [isHex, Bool.or_eq_true, Bool.and_eq_true, decide_eq_true_eq] at h
    rcases h with h | h
    · have := isDigit_iff.1 h
      have hs : ∀ c ∈ "0123456789".toList, c ∈ "0123456789abcdef".toList := by decide
      exact hs c this
    · obtain ⟨h1, h2⟩ := char_cases h.1 h.2
      have e : c = Char.ofNat c.toNat := (Char.ofNat_toNat c).symm
      rw [e]
      revert h1 h2
      rw [show ('a' : Char).toNat = 97 from rfl, show ('f' : Char).toNat = 102 from rfl]
      generalize c.toNat = n
      intro h1 h2
      interval_cases n <;> decide
  · intro h
    have : ∀ c ∈ "0123456789abcdef".toList, isHex c = true := by decide
    exact this c h

theorem isAlias_iff {c : Char} : isAlias c = true ↔
    c ∈ "abcdefghijklmnopqrstuvwxyzABCDEFGHIJKLMNOPQRSTUVWXYZ0123456789_-".toList := by
  constructor
  · intro h
    simp only [isAlias, Bool.or_eq_true, Bool.and_eq_true, decide_eq_true_eq, beq_iff_eq] at h
    rcases h with (((h | h) | h) | rfl) | rfl
    · obtain ⟨h1, h2⟩ := char_cases h.1 h.2
      have e : c = Char.ofNat c.toNat := (Char.ofNat_toNat c).symm
      rw [e]
      revert h1 h2
      rw [show ('a' : Char).toNat = 97 from rfl, show ('z' : Char).toNat = 122 from rfl]
      generalize c.toNat = n
      intro h1 h2
      interval_cases n <;> decide
    · obtain ⟨h1, h2⟩ := char_cases h.1 h.2
      have e : c = Char.ofNat c.toNat := (Char.ofNat_toNat c).symm
      rw [e]
      revert h1 h2
      rw [show ('A' : Char).toNat = 65 from rfl, show ('Z' : Char).toNat = 90 from rfl]
      generalize c.toNat = n
      intro h1 h2
      interval_cases n <;> decide
    · have := isDigit_iff.1 h
      have hs : ∀ c ∈ "0123456789".toList,
          c ∈ "abcdefghijklmnopqrstuvwxyzABCDEFGHIJKLMNOPQRSTUVWXYZ0123456789_-".toList := by decide
      exact hs c this
    · decide
    · decide
  · intro h
    have : ∀ c ∈ "abcdefghijklmnopqrstuvwxyzABCDEFGHIJKLMNOPQRSTUVWXYZ0123456789_-".toList, isAlias c = true := by
      decide
    exact this c h

theorem takeWhile_stop {p : Char → Bool} {l t : List Char} {c : Char} (h : ∀ x ∈ l, p x = true) (hc : p c = false) :
    (l ++ c :: t).takeWhile p = l := by
  rw [List.takeWhile_append_of_pos h, List.takeWhile_cons, hc]; simp

/-! ## Results -/

theorem resultsAt_iff {t ds : List Char} : resultsAt t = some ds ↔
    Digits ds ∧ ∃ rest, t = ds ++ "/results".toList ++ rest := by
  unfold resultsAt
  dsimp only
  constructor
  · intro h
    split at h
    · rename_i hc
      simp only [Option.some.injEq] at h
      subst h
      refine ⟨⟨hc.1, fun c hcm => isDigit_iff.1 (List.mem_takeWhile_imp hcm)⟩, ?_⟩
      obtain ⟨u, hu⟩ := List.isPrefixOf_iff_prefix.1 hc.2
      refine ⟨u, ?_⟩
      rw [List.append_assoc, hu]
      have := List.takeWhile_append_dropWhile (p := isDigit) (l := t)
      have h2 : t.drop (t.takeWhile isDigit).length = t.dropWhile isDigit := by
        conv_lhs => rhs; rw [← this]
        exact List.drop_left
      rw [h2]
      exact this.symm
    · simp at h
  · rintro ⟨⟨hne, hd⟩, rest, rfl⟩
    have htw : (ds ++ "/results".toList ++ rest).takeWhile isDigit = ds := by
      rw [List.append_assoc, show "/results".toList ++ rest = '/' :: ("results".toList ++ rest) from rfl]
      exact takeWhile_stop (fun x hx => isDigit_iff.2 (hd x hx)) (by decide)
    rw [htw, if_pos ⟨hne, by
      rw [List.append_assoc, List.drop_left]
      exact List.isPrefixOf_iff_prefix.2 ⟨rest, rfl⟩⟩]

theorem value_snoc (ds : List Char) (c : Char) : value (ds ++ [c]) = 10 * value ds + (c.toNat - 48) := by
  simp [value]

theorem stands_value {ds : List Char} {n : Nat} (h : Stands ds n) : value ds = n := by
  induction h with
  | nil => rfl
  | snoc d _ ih =>
    rw [value_snoc, ih]
    have : ∀ d : Fin 10, (Char.ofNat (48 + d.val)).toNat - 48 = d.val := by decide
    rw [this]

theorem stands_of_digits {ds : List Char} (h : ∀ c ∈ ds, c ∈ "0123456789".toList) : ∃ n, Stands ds n := by
  induction ds using List.reverseRecOn with
  | nil => exact ⟨0, .nil⟩
  | append_singleton ds c ih =>
    obtain ⟨n, hn⟩ := ih (fun x hx => h x (by simp [hx]))
    have hc : ∀ c ∈ "0123456789".toList, ∃ d : Fin 10, c = Char.ofNat (48 + d.val) := by decide
    obtain ⟨d, hd⟩ := hc c (h c (by simp))
    rw [hd]
    exact ⟨_, .snoc d hn⟩

/-- Which attempt a path means, exactly: the digits at the leftmost place that reads `/run/`, digits, `/results`, with
anything before and after it; a number that does not fit 64 bits means the greatest one. -/
theorem C167_exact_partial (path : List Char) (n : Nat) :
    resultsOf path = some n ↔ ∃ pre ds m, ResultsAt path pre ds ∧ Stands ds m ∧ n = min m (2 ^ 64 - 1) ∧
      ∀ pre' ds', ResultsAt path pre' ds' → pre.length ≤ pre'.length := by
  unfold resultsOf findResults
  rw [Option.map_eq_some_iff]
  constructor
  · rintro ⟨ds, hs, rfl⟩
    obtain ⟨pre, t, h1, h2, h3⟩ := (search_some (by decide)).1 hs
    obtain ⟨hd, rest, rfl⟩ := resultsAt_iff.1 h2
    obtain ⟨m, hm⟩ := stands_of_digits hd.2
    refine ⟨pre, ds, m, ⟨hd, rest, by rw [h1]; simp only [List.append_assoc]⟩, hm, by rw [attemptId, stands_value hm], ?_⟩
    rintro pre' ds' ⟨hd', rest', he⟩
    by_contra hlt
    have := h3 pre' (ds' ++ "/results".toList ++ rest') (by rw [he]; simp only [List.append_assoc]) (by omega)
    rw [resultsAt_iff.2 ⟨hd', rest', rfl⟩] at this
    simp at this
  · rintro ⟨pre, ds, m, ⟨hd, rest, he⟩, hm, rfl, hmin⟩
    refine ⟨ds, (search_some (by decide)).2 ⟨pre, ds ++ "/results".toList ++ rest, by rw [he]; simp only [List.append_assoc],
      resultsAt_iff.2 ⟨hd, rest, rfl⟩, ?_⟩, by rw [attemptId, stands_value hm]⟩
    intro pre' t' he' hlt
    cases hr : resultsAt t' with
    | none => rfl
    | some ds' =>
      obtain ⟨hd', rest', rfl⟩ := resultsAt_iff.1 hr
      have := hmin pre' ds' ⟨hd', rest', by rw [he']; simp only [List.append_assoc]⟩
      omega

theorem decimal_stands (n : Nat) : Stands (decimal n) n := by
  induction n using Nat.strongRecOn with
  | _ n ih =>
    rw [decimal]
    split
    · rename_i h
      have := Stands.snoc ⟨n, h⟩ Stands.nil
      simpa [Nat.add_comm] using this
    · rename_i h
      have := Stands.snoc ⟨n % 10, Nat.mod_lt _ (by omega)⟩ (ih (n / 10) (by omega))
      rw [show 10 * (n / 10) + n % 10 = n by omega] at this
      simpa [Nat.add_comm] using this

theorem decimal_digits (n : Nat) : Digits (decimal n) := by
  induction n using Nat.strongRecOn with
  | _ n ih =>
    have hd : ∀ d : Fin 10, Char.ofNat (d.val + 48) ∈ "0123456789".toList := by decide
    rw [decimal]
    split
    · rename_i h
      exact ⟨by simp, fun c hc => by rw [List.mem_singleton.1 hc]; exact hd ⟨n, h⟩⟩
    · refine ⟨by simp, fun c hc => ?_⟩
      rcases List.mem_append.1 hc with hc | hc
      · exact (ih (n / 10) (by omega)).2 c hc
      · rw [List.mem_singleton.1 hc]; exact hd ⟨n % 10, Nat.mod_lt _ (by omega)⟩

/-- The path a runner uses for an attempt is routed to the page for results and means that attempt. -/
theorem C167_runner_partial (n : Nat) (hn : n < 2 ^ 64) :
    serveMux (table .graderRunner) { path := resultsPath n } = .run .results ∧
      resultsOf (resultsPath n) = some n := by
  have hd := decimal_digits n
  have hslash : '/' ∉ decimal n := fun h => absurd (hd.2 _ h) (by decide)
  have hnot : ∀ c ∈ decimal n, c ≠ 'r' ∧ c ≠ '.' := by
    have : ∀ c ∈ "0123456789".toList, c ≠ 'r' ∧ c ≠ '.' := by decide
    exact fun c hc => this c (hd.2 c hc)
  obtain ⟨c, t, hc⟩ := List.exists_cons_of_ne_nil hd.1
  constructor
  · have hel : elems (("run/".toList ++ decimal n) ++ "/results/".toList) = ["run".toList, decimal n, "results".toList, []] := by
      rw [show ("run/".toList ++ decimal n) ++ "/results/".toList = "run".toList ++ '/' :: (decimal n ++ '/' :: "results/".toList) from rfl,
        elems_append_slash, elems_append_slash, elems_noslash hslash]
      rfl
    have htidy : Tidy (resultsPath n) := by
      rw [show resultsPath n = '/' :: (("run/".toList ++ decimal n) ++ "/results/".toList) from rfl, tidy_iff_good, hel]
      refine ⟨?_, by simp⟩
      intro e he
      simp only [List.dropLast, List.mem_cons, List.not_mem_nil, or_false] at he
      rcases he with rfl | rfl | rfl
      · decide
      · refine (name_iff hslash).2 ⟨hd.1, ?_, ?_⟩
        · intro h
          exact (hnot '.' (by rw [h]; simp [dot])).2 rfl
        · intro h
          exact (hnot '.' (by rw [h]; simp [dotdot])).2 rfl
      · decide
    refine (C165_results { path := resultsPath n } rfl htidy).1.2 ⟨⟨decimal n ++ "/results/".toList, rfl⟩, ?_, ?_⟩
    · intro h
      have h' : decimal n ++ "/results/".toList = "request".toList := by
        have := congrArg (List.drop 5) h
        exact this
      rw [hc] at h'
      have : c = 'r' := by
        have := congrArg List.head? h'
        simpa using this
      exact (hnot c (by rw [hc]; simp)).1 this
    · rintro ⟨u, h⟩
      have h' : "request/".toList ++ u = decimal n ++ "/results/".toList := by
        have := congrArg (List.drop 5) h
        exact this
      rw [hc] at h'
      have : 'r' = c := by
        have := congrArg List.head? h'
        simpa using this
      exact (hnot c (by rw [hc]; simp)).1 this.symm
  · rw [C167_exact_partial]
    exact ⟨[], decimal n, n, ⟨hd, "/".toList, by simp [resultsPath]⟩, decimal_stands n, by omega, by simp⟩

/-- Different attempts have different paths. -/
theorem C167_distinct_partial (n m : Nat) (hn : n < 2 ^ 64) (hm : m < 2 ^ 64) (h : resultsPath n = resultsPath m) :
    n = m := by
  have h1 := (C167_runner_partial n hn).2
  rw [h, (C167_runner_partial m hm).2] at h1
  exact (Option.some.inj h1).symm

/-- The full statement is false: other paths than the one of an attempt are taken for it, numbers out of range become
the greatest attempt, and the results of a run are taken from a runner that was not given the run. -/
theorem C167_false :
    (resultsOf "/run/old/run/5/results.txt/x".toList = some 5 ∧
      serveMux (table .graderRunner) { path := "/run/old/run/5/results.txt/x".toList } = .run .results) ∧
    resultsOf "/run/99999999999999999999999/results/".toList = some (2 ^ 64 - 1) ∧
    acceptResults [⟨5, "runner1"⟩] (resultsPath 5) "runner2" = some ⟨5, "runner1"⟩ := by
  refine ⟨⟨by decide +kernel, by decide +kernel⟩, by decide +kernel, ?_⟩
  unfold acceptResults
  rw [(C167_runner_partial 5 (by omega)).2]
  rfl

/-- Who sends the results makes no difference; they are taken for the run that was handed out as the attempt in the
path, and refused if there is none. -/
theorem C167_sender_partial (inflight : List Handed) (n : Nat) (hn : n < 2 ^ 64) (sender : String) (h : Handed)
    (hu : (inflight.map Handed.attempt).Nodup) :
    acceptResults inflight (resultsPath n) sender = some h ↔ h ∈ inflight ∧ h.attempt = n := by
  unfold acceptResults
  rw [(C167_runner_partial n hn).2]
  dsimp only
  constructor
  · intro hf
    exact ⟨List.mem_of_find?_eq_some hf, by simpa using List.find?_some hf⟩
  · rintro ⟨hm, ha⟩
    cases hf : inflight.find? fun h => h.attempt = n with
    | none =>
      have := List.find?_eq_none.1 hf h hm
      simp [ha] at this
    | some g =>
      have h1 := List.mem_of_find?_eq_some hf
      have h2 : g.attempt = n := by simpa using List.find?_some hf
      rw [List.inj_on_of_nodup_map hu h1 hm (h2.trans ha.symm)]

example : acceptResults [⟨4, "a"⟩, ⟨5, "b"⟩] (resultsPath 5) "c" = some ⟨5, "b"⟩ :=
  (C167_sender_partial _ 5 (by omega) "c" _ (by decide)).2 (by decide)

/-! ## Inputs -/

theorem sha1_take {h t : List Char} (hs : Sha1 h) :
    (h ++ t).take 40 = h ∧ ((h ++ t).take 40).length = 40 ∧ ((h ++ t).take 40).all isHex = true := by
  have h1 : (h ++ t).take 40 = h := by rw [← hs.1]; simp
  refine ⟨h1, by rw [h1]; exact hs.1, ?_⟩
  rw [h1, List.all_eq_true]
  exact fun c hc => isHex_iff.2 (hs.2 c hc)

theorem hex_alias {c : Char} (h : c ∈ "0123456789abcdef".toList) : isAlias c = true := by
  have : ∀ c ∈ "0123456789abcdef".toList, isAlias c = true := by decide
  exact this c h

theorem search_here {α : Type} {start t : List Char} {rest : List Char → Option α} {a : α} (hs : start ≠ [])
    (h : rest t = some a) : search start rest (start ++ t) = some a :=
  (search_some hs).2 ⟨[], t, by simp, h, by simp⟩

/-- The request a runner makes for an input of a problem is looked up as that input of that problem; without a problem
(an input that came with its run) as that input. -/
theorem C168_exact (problem hash : List Char) (hp : ProblemName problem) (hh : Sha1 hash) :
    serveMux (table .graderRunner) { path := inputPath problem hash } = .run .input ∧
      findInput (inputPath problem hash) = some (problem, hash) := by
  have hslash : '/' ∉ hash := fun h => absurd (hh.2 _ h) (by decide)
  have hpslash : '/' ∉ problem := fun h => absurd (hp _ h) (by decide)
  have hhne : hash ≠ [] := by intro h; have := hh.1; rw [h] at this; simp at this
  have hname : Name hash := (name_iff hslash).2 ⟨hhne,
    fun h => by have := hh.1; rw [h] at this; simp [dot] at this,
    fun h => by have := hh.1; rw [h] at this; simp [dotdot] at this⟩
  have route : ∀ q, Tidy q → "/input/".toList <+: q → serveMux (table .graderRunner) { path := q } = .run .input := by
    intro q ht hq
    refine (C165_handled _ _ _).2 ⟨rfl, .inr ht, ?_, .below "/input/", by simp [offers, runnerOffers], hq, ?_⟩
    · rintro ⟨_, o, h, ho, he⟩
      have hl : "/input/".toList <+: o.text.toList := hq.trans ⟨_, he.symm⟩
      simp only [offers, runnerOffers, List.mem_cons, Prod.mk.injEq, List.not_mem_nil, or_false] at ho
      rcases ho with ⟨rfl, rfl⟩ | ⟨rfl, rfl⟩ | ⟨rfl, rfl⟩ | ⟨rfl, rfl⟩
      · exact absurd hl (by decide)
      · exact absurd hl (by decide)
      · exact absurd hl (by decide)
      · have h2 : q = "/input".toList := by
          have := congrArg List.dropLast he
          rw [show "/".toList = ['/'] from rfl, List.dropLast_concat] at this
          exact this.symm.trans (by decide)
        rw [h2] at hq; exact absurd hq (by decide)
    · intro o' h' ho' hh'
      simp only [offers, runnerOffers, List.mem_cons, Prod.mk.injEq, List.not_mem_nil, or_false] at ho'
      rcases ho' with ⟨rfl, rfl⟩ | ⟨rfl, rfl⟩ | ⟨rfl, rfl⟩ | ⟨rfl, rfl⟩
      · exfalso
        have := below_comparable (show "/monitoring/benchmark/".toList <+: q from hh') hq
        exact absurd this (by decide)
      · exfalso
        have := below_comparable (show "/run/request/".toList <+: q from hh') hq
        exact absurd this (by decide)
      · exfalso
        have := below_comparable (show "/run/".toList <+: q from hh') hq
        exact absurd this (by decide)
      · exact Nat.le_refl _
  have tk := sha1_take (t := ['/']) hh
  by_cases h0 : problem = []
  · subst h0
    have e : inputPath [] hash = "/input/".toList ++ (hash ++ ['/']) := by simp [inputPath]
    have hel : elems ("input".toList ++ '/' :: (hash ++ '/' :: [])) = ["input".toList, hash, []] := by
      rw [elems_append_slash, elems_append_slash, elems_noslash hslash]; rfl
    refine ⟨route _ ?_ ⟨hash ++ ['/'], e.symm⟩, ?_⟩
    · rw [e, show "/input/".toList ++ (hash ++ ['/']) = '/' :: ("input".toList ++ '/' :: (hash ++ '/' :: [])) from rfl,
        tidy_iff_good, hel]
      refine ⟨?_, by simp⟩
      intro x hx
      simp only [List.dropLast, List.mem_cons, List.not_mem_nil, or_false] at hx
      rcases hx with rfl | rfl
      · decide
      · exact hname
    · rw [e]
      refine search_here (by decide) ?_
      have htw : (hash ++ ['/']).takeWhile isAlias = hash := takeWhile_stop (fun c hc => hex_alias (hh.2 c hc)) (by decide)
      unfold inputAt
      dsimp only
      rw [htw, List.drop_left, if_pos ⟨tk.2.1, tk.2.2⟩, tk.1]
      simp
  · have e : inputPath problem hash = "/input/".toList ++ (problem ++ '/' :: (hash ++ ['/'])) := by
      simp [inputPath, h0]
    have hpn : Name problem := (name_iff hpslash).2 ⟨h0,
      fun h => absurd (hp '.' (by rw [h]; simp [dot])) (by decide),
      fun h => absurd (hp '.' (by rw [h]; simp [dotdot])) (by decide)⟩
    have hel : elems ("input".toList ++ '/' :: (problem ++ '/' :: (hash ++ '/' :: []))) =
        ["input".toList, problem, hash, []] := by
      rw [elems_append_slash, elems_append_slash, elems_append_slash, elems_noslash hslash, elems_noslash hpslash]; rfl
    refine ⟨route _ ?_ ⟨_, e.symm⟩, ?_⟩
    · rw [e, show "/input/".toList ++ (problem ++ '/' :: (hash ++ ['/'])) =
        '/' :: ("input".toList ++ '/' :: (problem ++ '/' :: (hash ++ '/' :: []))) from rfl, tidy_iff_good, hel]
      refine ⟨?_, by simp⟩
      intro x hx
      simp only [List.dropLast, List.mem_cons, List.not_mem_nil, or_false] at hx
      rcases hx with rfl | rfl | rfl
      · decide
      · exact hpn
      · exact hname
    · rw [e]
      refine search_here (by decide) ?_
      have htw : (problem ++ '/' :: (hash ++ ['/'])).takeWhile isAlias = problem :=
        takeWhile_stop (fun c hc => isAlias_iff.2 (hp c hc)) (by decide)
      unfold inputAt
      dsimp only
      rw [htw, List.drop_left]
      have hall : hash.all isHex = true := by have := tk.2.2; rwa [tk.1] at this
      simp only [tk.1, hh.1, hall, and_self, if_true, Option.map_some]

theorem hashAt_sha1 {t h : List Char}
    (ht : (if (t.take 40).length = 40 ∧ (t.take 40).all isHex = true then some (t.take 40) else none) = some h) :
    Sha1 h ∧ ∃ rest, t = h ++ rest := by
  split at ht
  · rename_i hc
    simp only [Option.some.injEq] at ht
    subst ht
    exact ⟨⟨hc.1, fun c hcm => isHex_iff.1 (List.all_eq_true.1 hc.2 c hcm)⟩, t.drop 40, (List.take_append_drop 40 t).symm⟩
  · simp at ht

/-- What is matched after `/input/`. -/
theorem inputAt_some {s p h : List Char} (hi : inputAt s = some (p, h)) :
    ProblemName p ∧ Sha1 h ∧ ((∃ rest, s = p ++ '/' :: h ++ rest) ∨ (p = [] ∧ ∃ rest, s = h ++ rest)) := by
  unfold inputAt at hi
  dsimp only at hi
  have hal : ProblemName (s.takeWhile isAlias) := fun c hc => isAlias_iff.1 (List.mem_takeWhile_imp hc)
  have hsplit := List.takeWhile_append_dropWhile (p := isAlias) (l := s)
  have hdrop : s.drop (s.takeWhile isAlias).length = s.dropWhile isAlias := by
    conv_lhs => rhs; rw [← hsplit]
    exact List.drop_left
  rw [hdrop] at hi
  split at hi
  · rename_i r hr
    simp only [Option.some.injEq] at hi
    subst hi
    split at hr
    · rename_i t ht
      obtain ⟨g, hg, he⟩ := Option.map_eq_some_iff.1 hr
      simp only [Prod.mk.injEq] at he
      obtain ⟨rfl, rfl⟩ := he
      obtain ⟨hs, rest, hrest⟩ := hashAt_sha1 hg
      refine ⟨hal, hs, .inl ⟨rest, ?_⟩⟩
      rw [List.append_assoc, List.cons_append, ← hrest, ← ht]
      exact hsplit.symm
    · simp at hr
  · obtain ⟨g, hg, he⟩ := Option.map_eq_some_iff.1 hi
    simp only [Prod.mk.injEq] at he
    obtain ⟨rfl, rfl⟩ := he
    obtain ⟨hs, rest, hrest⟩ := hashAt_sha1 hg
    exact ⟨by intro c hc; simp at hc, hs, .inr ⟨rfl, rest, hrest⟩⟩

/-- Whatever the path of a request, an input is only looked up by 40 hexadecimal digits, in a problem whose name has
only letters, digits, `_` and `-`, and both stand in the path after `/input/`. -/
theorem C168_wellformed (path p h : List Char) (hf : findInput path = some (p, h)) :
    ProblemName p ∧ Sha1 h ∧ ∃ pre rest,
      path = pre ++ "/input/".toList ++ p ++ '/' :: h ++ rest ∨ (p = [] ∧ path = pre ++ "/input/".toList ++ h ++ rest) := by
  obtain ⟨pre, t, h1, h2, _⟩ := (search_some (by decide)).1 hf
  obtain ⟨hp, hh, hrest⟩ := inputAt_some h2
  refine ⟨hp, hh, pre, ?_⟩
  rcases hrest with ⟨rest, rfl⟩ | ⟨rfl, rest, rfl⟩
  · exact ⟨rest, .inl (by rw [h1]; simp only [List.append_assoc])⟩
  · exact ⟨rest, .inr ⟨rfl, by rw [h1]; simp only [List.append_assoc]⟩⟩

/-- The places of a text with slashes at both ends in a path. -/
theorem input_place {pre t q : List Char} (h : '/' :: q = pre ++ "/input/".toList ++ t) :
    ∃ l1 l2, elems q = l1 ++ "input".toList :: l2 ∧ elems t = l2 := by
  have h1 : elems ('/' :: q) = elems pre ++ ("input".toList :: elems t) := by
    rw [h, show pre ++ "/input/".toList ++ t = pre ++ '/' :: ("input".toList ++ '/' :: t) by simp,
      elems_append_slash, elems_append_slash, elems_noslash (e := "input".toList) (by decide)]; rfl
  rw [elems_root] at h1
  cases ha : elems pre with
  | nil => exact absurd ha (elems_ne_nil pre)
  | cons y ys =>
    rw [ha] at h1
    simp only [List.cons_append, List.cons.injEq] at h1
    exact ⟨ys, elems t, h1.2, rfl⟩

/-- The input of a problem with another name is not found (404), unless the name begins with 40 hexadecimal digits:
they are then looked up as an input. -/
theorem C168_other_names (problem hash : List Char) (hne : problem ≠ []) (hs : '/' ∉ problem)
    (hp : ¬ ProblemName problem) (hh : Sha1 hash) :
    ((∀ h rest, Sha1 h → problem ≠ h ++ rest) → findInput (inputPath problem hash) = none) ∧
    (∀ h rest, Sha1 h → problem = h ++ rest → findInput (inputPath problem hash) = some ([], h)) := by
  have hslash : '/' ∉ hash := fun h => absurd (hh.2 _ h) (by decide)
  have e : inputPath problem hash = "/input/".toList ++ (problem ++ '/' :: (hash ++ ['/'])) := by
    simp [inputPath, hne]
  -- at the first place, the optional part cannot match
  have first : ∀ p h, inputAt (problem ++ '/' :: (hash ++ ['/'])) = some (p, h) →
      p = [] ∧ ∃ rest, problem = h ++ rest := by
    intro p h hi
    obtain ⟨h1, h2, h3⟩ := inputAt_some hi
    have sl : ∀ {a b c d : List Char}, '/' ∉ a → '/' ∉ c → a ++ '/' :: b = c ++ '/' :: d → a = c := by
      intro a b c d ha hc he
      have := congrArg elems he
      rw [elems_append_slash, elems_append_slash, elems_noslash ha, elems_noslash hc] at this
      simp only [List.singleton_append, List.cons.injEq] at this
      exact this.1
    rcases h3 with ⟨rest, he⟩ | ⟨rfl, rest, he⟩
    · exfalso
      rw [List.append_assoc, List.cons_append] at he
      have := sl hs (fun hm => absurd (h1 _ hm) (by decide)) he
      rw [this] at hp
      exact hp h1
    · refine ⟨rfl, ?_⟩
      have hhs : '/' ∉ h := fun hm => absurd (h2.2 _ hm) (by decide)
      have hpre1 : h <+: problem ++ '/' :: (hash ++ ['/']) := ⟨rest, he.symm⟩
      have hpre2 : problem <+: problem ++ '/' :: (hash ++ ['/']) := ⟨_, rfl⟩
      rcases below_comparable hpre1 hpre2 with ⟨u, hu⟩ | ⟨u, hu⟩
      · exact ⟨u, hu.symm⟩
      · rw [← hu, List.append_assoc] at he
        have := List.append_cancel_left he
        cases u with
        | nil => exact ⟨[], by simpa using hu⟩
        | cons c u =>
          simp only [List.cons_append, List.cons.injEq] at this
          exact absurd (by rw [← hu, ← this.1]; simp) hhs
  constructor
  · intro hno
    cases hf : findInput (inputPath problem hash) with
    | none => rfl
    | some r =>
      exfalso
      obtain ⟨p, h⟩ := r
      obtain ⟨pre, t, h1, h2, _⟩ := (search_some (by decide)).1 hf
      rw [e, show "/input/".toList ++ (problem ++ '/' :: (hash ++ ['/'])) =
        '/' :: ("input".toList ++ '/' :: (problem ++ '/' :: (hash ++ '/' :: []))) from rfl] at h1
      obtain ⟨l1, l2, h3, h4⟩ := input_place h1
      rw [elems_append_slash, elems_append_slash, elems_append_slash, elems_noslash hs, elems_noslash hslash,
        elems_noslash (by decide)] at h3
      have hsha : ∀ {h}, Sha1 h → h ≠ "input".toList := by
        intro h hs' he; have := hs'.1; rw [he] at this; exact absurd this (by decide)
      have hpi : problem ≠ "input".toList := by
        rintro rfl; exact hp (by decide)
      have hl1 : l1 = [] := by
        cases l1 with
        | nil => rfl
        | cons a l1 =>
          exfalso
          cases l1 with
          | nil => simp at h3; exact hpi h3.2.1
          | cons b l1 =>
            cases l1 with
            | nil => simp at h3; exact hsha hh h3.2.2.1
            | cons c l1 =>
              cases l1 with
              | nil => simp [elems] at h3
              | cons d l1 => simp [elems] at h3
      subst hl1
      have ht : t = problem ++ '/' :: (hash ++ '/' :: []) := by
        rw [← slashed_elems t, h4]
        simp only [List.nil_append, List.cons_append, List.cons.injEq, true_and] at h3
        rw [← h3]; simp [slashed, elems]
      rw [ht] at h2
      obtain ⟨_, rest, hr⟩ := first p h h2
      exact hno h rest (inputAt_some h2).2.1 hr
  · intro h rest hsha he
    rw [e]
    refine search_here (by decide) ?_
    cases hi : inputAt (problem ++ '/' :: (hash ++ ['/'])) with
    | some r =>
      obtain ⟨p, g⟩ := r
      obtain ⟨rfl, rest', hr⟩ := first p g hi
      have hg := (inputAt_some hi).2.1
      have : g = h := by
        have := congrArg (List.take 40) (he.symm.trans hr)
        rw [(sha1_take hsha).1, (sha1_take hg).1] at this
        exact this.symm
      rw [this]
    | none =>
      exfalso
      unfold inputAt at hi
      dsimp only at hi
      have tk := sha1_take (t := rest ++ '/' :: (hash ++ ['/'])) hsha
      rw [he, List.append_assoc] at hi
      rw [if_pos ⟨tk.2.1, tk.2.2⟩] at hi
      split at hi <;> simp at hi

-- a problem and an input; a name with a point; a name that begins like an input
example : ProblemName "sumas-2_b".toList := by decide
example : Sha1 "0123456789abcdef0123456789abcdef01234567".toList := by unfold Sha1; decide
example : ¬ ProblemName "a.b".toList := by decide
example : findInput "/input/a.b/0123456789abcdef0123456789abcdef01234567/".toList = none := by decide +kernel
example : (findInput "/input/sumas/0123456789abcdef0123456789abcdef01234567/".toList).map (·.1) = some "sumas".toList := by
  decide +kernel

end Quark.Access
