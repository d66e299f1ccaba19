import Verif.Tokenizer.Sim
import Verif.Tokenizer.Spec

namespace Quark.Tokenizer

theorem IsRuns.unique {α : Type} (q : α → Bool) {l rs rs'} (h : IsRuns q l rs) (h' : IsRuns q l rs') :
    rs = rs' := by
  have split_eq : ∀ (sep sep' r r' rest rest' : List α),
      (∀ x ∈ sep, q x = false) → (∀ x ∈ sep', q x = false) →
      (∀ x ∈ r, q x = true) → (∀ x ∈ r', q x = true) → r ≠ [] → r' ≠ [] →
      (∀ x ∈ rest.head?, q x = false) → (∀ x ∈ rest'.head?, q x = false) →
      sep ++ r ++ rest = sep' ++ r' ++ rest' → r = r' ∧ rest = rest' := by
    have step2 : ∀ (r r' rest rest' : List α), (∀ x ∈ r, q x = true) → (∀ x ∈ r', q x = true) →
        (∀ x ∈ rest.head?, q x = false) → (∀ x ∈ rest'.head?, q x = false) →
        r ++ rest = r' ++ rest' → r = r' ∧ rest = rest' := by
      intro r
      induction r with
      | nil =>
        intro r' rest rest' _ h2 h3 _ he
        match r' with
        | [] => exact ⟨rfl, by simpa using he⟩
        | a :: r' =>
          simp only [List.nil_append, List.cons_append] at he
          have := h3 a (by simp [he])
          rw [h2 a (by simp)] at this; cases this
      | cons b r ih =>
        intro r' rest rest' h1 h2 h3 h4 he
        match r' with
        | [] =>
          simp only [List.nil_append, List.cons_append] at he
          have := h4 b (by simp [← he])
          rw [h1 b (by simp)] at this; cases this
        | a :: r' =>
          simp only [List.cons_append, List.cons.injEq] at he
          obtain ⟨hh, ht⟩ := ih r' rest rest' (fun x hx => h1 x (by simp [hx]))
            (fun x hx => h2 x (by simp [hx])) h3 h4 he.2
          exact ⟨by rw [he.1, hh], ht⟩
    intro sep
    induction sep with
    | nil =>
      intro sep' r r' rest rest' _ h1 h2 h3 h4 h5 h6 h7 he
      match sep' with
      | [] => exact step2 r r' rest rest' h2 h3 h6 h7 (by simpa using he)
      | a :: sep' =>
        match r with
        | [] => exact absurd rfl h4
        | b :: r =>
          simp only [List.nil_append, List.cons_append, List.cons.injEq] at he
          have := h1 a (by simp)
          rw [← he.1, h2 b (by simp)] at this; cases this
    | cons c sep ih =>
      intro sep' r r' rest rest' h0 h1 h2 h3 h4 h5 h6 h7 he
      match sep' with
      | [] =>
        match r' with
        | [] => exact absurd rfl h5
        | b :: r' =>
          simp only [List.nil_append, List.cons_append, List.cons.injEq] at he
          have := h0 c (by simp)
          rw [he.1, h3 b (by simp)] at this; cases this
      | a :: sep' =>
        simp only [List.cons_append, List.cons.injEq] at he
        exact ih sep' r r' rest rest' (fun x hx => h0 x (by simp [hx]))
          (fun x hx => h1 x (by simp [hx])) h2 h3 h4 h5 h6 h7 he.2
  induction h generalizing rs' with
  | done sep hsep =>
    cases h' with
    | done => rfl
    | run sep' r' rest' rs' h1 h2 h3 h4 h5 =>
      exfalso
      match r', h2 with
      | b :: r', _ =>
        have := hsep b (by simp)
        rw [h3 b (by simp)] at this; cases this
  | run sep r rest rs h1 h2 h3 h4 h5 ih =>
    generalize hl : sep ++ r ++ rest = l at h'
    cases h' with
    | done _ hsep =>
      exfalso
      match r, h2 with
      | b :: r, _ =>
        have := hsep b (by simp [← hl])
        rw [h3 b (by simp)] at this; cases this
    | run sep' r' rest' rs' h1' h2' h3' h4' h5' =>
      obtain ⟨ha, hb⟩ := split_eq sep sep' r r' rest rest' h1 h1' h3 h3' h2 h2' h4 h4' hl
      subst ha hb
      rw [ih h5']

theorem runesOf_nil : runesOf [] = [] := by rw [runesOf]

theorem runesOf_cons (b : UInt8) (r : List UInt8) : runesOf (b :: r) =
    ((decodeRune (b :: r)).1, (b :: r).take (decodeRune (b :: r)).2) ::
      runesOf ((b :: r).drop (decodeRune (b :: r)).2) := by
  rw [runesOf]

theorem runesOf_skip (p : Nat → Bool) (l : List UInt8) :
    ∃ sep, runesOf l = sep ++ runesOf (skipD p l) ∧ ∀ x ∈ sep, p x.1 = false := by
  induction l using rune_induction with
  | h0 => exact ⟨[], by simp [skipD], by simp⟩
  | h1 b r ih =>
    by_cases ht : p (decodeRune (b :: r)).1
    · exact ⟨[], by simp [skipD, skipN_cons, ht], by simp⟩
    · obtain ⟨sep, h1, h2⟩ := ih
      have hd : skipD p (b :: r) = skipD p ((b :: r).drop (decodeRune (b :: r)).2) := by
        simp only [skipD]
        rw [skipN_cons, if_neg ht, List.drop_drop]
      refine ⟨_ :: sep, by rw [runesOf_cons, h1, hd, List.cons_append], ?_⟩
      intro x hx
      rcases List.mem_cons.mp hx with rfl | hx
      · simpa using ht
      · exact h2 x hx

theorem runesOf_scan_none (p : Nat → Bool) (l : List UInt8) (h : scanF p l = none) :
    (∀ x ∈ runesOf l, p x.1 = true) ∧ (runesOf l).flatMap Prod.snd = l := by
  induction l using rune_induction with
  | h0 => simp [runesOf_nil]
  | h1 b r ih =>
    rw [scanF_cons] at h
    split at h
    · rename_i ht
      simp only [Option.map_eq_none_iff] at h
      obtain ⟨h1, h2⟩ := ih h
      rw [runesOf_cons]
      refine ⟨?_, ?_⟩
      · intro x hx
        rcases List.mem_cons.mp hx with rfl | hx
        · exact ht
        · exact h1 x hx
      · rw [List.flatMap_cons, h2]; simp
    · cases h

theorem runesOf_scan_some (p : Nat → Bool) (l : List UInt8) : ∀ i w, scanF p l = some (i, w) →
    ∃ run x, runesOf l = run ++ x :: runesOf (l.drop (i + w)) ∧ (∀ x ∈ run, p x.1 = true) ∧
      p x.1 = false ∧ run.flatMap Prod.snd = l.take i ∧ (i ≠ 0 → run ≠ []) := by
  induction l using rune_induction with
  | h0 => simp [scanF_nil]
  | h1 b r ih =>
    intro i w h
    rw [scanF_cons] at h
    split at h
    · rename_i ht
      match hq : scanF p ((b :: r).drop (decodeRune (b :: r)).2), h with
      | some (j, w'), h =>
        simp at h
        obtain ⟨rfl, rfl⟩ := h
        obtain ⟨run, x, h1, h2, h3, h4, h5⟩ := ih j w' hq
        refine ⟨((decodeRune (b :: r)).1, (b :: r).take (decodeRune (b :: r)).2) :: run, x,
          ?_, ?_, h3, ?_, by simp⟩
        · rw [runesOf_cons, h1, List.cons_append, List.drop_drop, Nat.add_assoc]
        · intro y hy
          rcases List.mem_cons.mp hy with rfl | hy
          · exact ht
          · exact h2 y hy
        · rw [List.flatMap_cons, h4, ← List.take_add]
    · rename_i ht
      simp only [Option.some.injEq, Prod.mk.injEq] at h
      obtain ⟨rfl, rfl⟩ := h
      exact ⟨[], _, by rw [runesOf_cons, List.nil_append, Nat.zero_add], by simp,
        by simpa using ht, by simp, by simp⟩

theorem isTokenization_skip (p : Nat → Bool) (l : List UInt8) (ts) 
    (h : IsTokenization p (skipD p l) ts) : IsTokenization p l ts := by
  obtain ⟨rs, h1, h2⟩ := h
  obtain ⟨sep, h3, h4⟩ := runesOf_skip p l
  refine ⟨rs, ?_, h2⟩
  rw [h3]
  generalize runesOf (skipD p l) = rl at h1
  cases h1 with
  | done s hs =>
    refine .done _ ?_
    intro x hx
    rcases List.mem_append.mp hx with hx | hx
    · exact h4 x hx
    · exact hs x hx
  | run s r rest rs a1 a2 a3 a4 a5 =>
    have : sep ++ (s ++ r ++ rest) = (sep ++ s) ++ r ++ rest := by simp
    rw [this]
    refine .run _ _ _ _ ?_ a2 a3 a4 a5
    intro x hx
    rcases List.mem_append.mp hx with hx | hx
    · exact h4 x hx
    · exact a1 x hx

theorem isTokenization_cons (p : Nat → Bool) (S : List UInt8) (i w ts)
    (hf : scanF p S = some (i, w)) (hi : 0 < i) (h : IsTokenization p (S.drop (i + w)) ts) :
    IsTokenization p S (S.take i :: ts) := by
  obtain ⟨rs, h1, h2⟩ := h
  obtain ⟨run, x, h3, h4, h5, h6, h7⟩ := runesOf_scan_some p S i w hf
  refine ⟨run :: rs, ?_, by simp [h6, h2]⟩
  have := IsRuns.run (q := fun rb : Nat × List UInt8 => p rb.1) [] run
    (x :: runesOf (S.drop (i + w))) rs (by simp) (h7 (by omega)) h4 (by simpa using h5) ?_
  · rw [h3]; simpa using this
  · generalize hrl : runesOf (S.drop (i + w)) = rl at h1
    cases h1 with
    | done s hs =>
      refine .done _ ?_
      intro y hy
      rcases List.mem_cons.mp hy with rfl | hy
      · exact h5
      · exact hs y hy
    | run s r rest rs a1 a2 a3 a4 a5 =>
      have : x :: (s ++ r ++ rest) = (x :: s) ++ r ++ rest := by simp
      rw [this]
      refine .run _ _ _ _ ?_ a2 a3 a4 a5
      intro y hy
      rcases List.mem_cons.mp hy with rfl | hy
      · exact h5
      · exact a1 y hy

theorem isTokenization_last (p : Nat → Bool) (S : List UInt8) (hf : scanF p S = none) (hne : S ≠ []) :
    IsTokenization p S [S] := by
  obtain ⟨h1, h2⟩ := runesOf_scan_none p S hf
  refine ⟨[runesOf S], ?_, by simp [h2]⟩
  have hr : runesOf S ≠ [] := by
    intro h; rw [h] at h2; exact hne h2.symm
  have := IsRuns.run (q := fun rb : Nat × List UInt8 => p rb.1) [] (runesOf S) [] []
    (by simp) hr h1 (by simp) (.done _ (by simp))
  simpa using this

theorem skipD_skipD (p : Nat → Bool) (l : List UInt8) : skipN p (skipD p l) = 0 :=
  skipN_drop_skipN p l

/-- Every stream has a tokenization. -/
theorem isTokenization_exists (p : Nat → Bool) (R : List UInt8) : ∃ ts, IsTokenization p R ts := by
  generalize hn : R.length = n
  induction n using Nat.strongRecOn generalizing R with
  | _ n ih =>
    suffices h : ∃ ts, IsTokenization p (skipD p R) ts by
      obtain ⟨ts, h⟩ := h; exact ⟨ts, isTokenization_skip p R ts h⟩
    rcases hf : scanF p (skipD p R) with _ | ⟨i, w⟩
    · by_cases hne : skipD p R = []
      · rw [hne]; exact ⟨[], [], by rw [runesOf_nil]; exact .done _ (by simp), rfl⟩
      · exact ⟨_, isTokenization_last p _ hf hne⟩
    · have hb := scanF_bound _ _ _ _ hf
      have hl := skipD_length_le p R
      obtain ⟨ts, h⟩ := ih ((skipD p R).drop (i + w)).length (by simp only [List.length_drop]; omega)
        _ rfl
      exact ⟨_, isTokenization_cons p _ i w ts hf (scanF_pos p _ (skipD_skipD p R) i w hf) h⟩

theorem IsTokenization.unique {p : Nat → Bool} {l ts ts'} (h : IsTokenization p l ts)
    (h' : IsTokenization p l ts') : ts = ts' := by
  obtain ⟨rs, h1, rfl⟩ := h
  obtain ⟨rs', h1', rfl⟩ := h'
  rw [h1.unique _ h1']

theorem scanF_width (p : Nat → Bool) (l : List UInt8) : ∀ i w, scanF p l = some (i, w) → w ≤ 4 := by
  induction l using rune_induction with
  | h0 => simp [scanF_nil]
  | h1 b r ih =>
    intro i w h
    rw [scanF_cons] at h
    split at h
    · match hq : scanF p ((b :: r).drop (decodeRune (b :: r)).2), h with
      | some (j, w'), h => simp at h; obtain ⟨-, rfl⟩ := h; exact ih j w' hq
    · simp only [Option.some.injEq, Prod.mk.injEq] at h
      obtain ⟨-, rfl⟩ := h
      have := seqLen_le b
      rcases decode_cases b r with h | h | ⟨v, h, -⟩ <;> simp [h]; omega

/-- The reference tokenizer against the specification. -/
theorem ref_spec (p : Nat → Bool) (lim e : Nat) (he : e ≤ 1) (R : List UInt8) :
    ∃ more, IsTokenization p R ((ref p lim e R).1 ++ more) ∧
      (∀ t ∈ (ref p lim e R).1, t.length < lim + e) ∧
      ((ref p lim e R).2 = false → more = []) ∧
      ((ref p lim e R).2 = true → ∃ t more', more = t :: more' ∧ lim < t.length + 4) := by
  generalize hn : R.length = n
  induction n using Nat.strongRecOn generalizing R with
  | _ n ih =>
    rcases hf : scanF p (skipD p R) with _ | ⟨i, w⟩
    · by_cases hne : skipD p R = []
      · rw [ref_nil_of _ _ _ _ hne]
        refine ⟨[], isTokenization_skip p R _ ?_, by simp, by simp, by simp⟩
        rw [hne]; exact ⟨[], by rw [runesOf_nil]; exact .done _ (by simp), rfl⟩
      · rw [ref_none_of p lim e R hf hne]
        split
        · rename_i hlt
          exact ⟨[], isTokenization_skip p R _ (isTokenization_last p _ hf hne), by simpa using hlt,
            by simp, by simp⟩
        · exact ⟨[skipD p R], isTokenization_skip p R _ (isTokenization_last p _ hf hne), by simp,
            by simp, fun _ => ⟨_, _, rfl, by omega⟩⟩
    · have hb := scanF_bound _ _ _ _ hf
      have hl := skipD_length_le p R
      have hi := scanF_pos p _ (skipD_skipD p R) i w hf
      rw [ref_some_of p lim e R i w hf]
      split
      · rename_i hfit
        obtain ⟨more, h1, h2, h3, h4⟩ := ih ((skipD p R).drop (i + w)).length
          (by simp only [List.length_drop]; omega) _ rfl
        refine ⟨more, isTokenization_skip p R _ (isTokenization_cons p _ i w _ hf hi h1), ?_, h3, h4⟩
        intro t ht
        rcases List.mem_cons.mp ht with rfl | ht
        · have : 0 < need p w := by unfold need; split <;> omega
          simp only [List.length_take]; omega
        · exact h2 t ht
      · rename_i hfit
        obtain ⟨ts, hts⟩ := isTokenization_exists p ((skipD p R).drop (i + w))
        refine ⟨_, isTokenization_skip p R _ (isTokenization_cons p _ i w ts hf hi hts), by simp,
          by simp, fun _ => ⟨_, _, rfl, ?_⟩⟩
        have hw := scanF_width p _ i w hf
        have : need p w ≤ 4 := by unfold need; split <;> omega
        simp only [List.length_take]
        omega

/-- Without a token of exactly `lim` bytes, it does not matter how end-of-file is reported. -/
theorem ref_exact (p : Nat → Bool) (lim : Nat) (R : List UInt8) (ts) (h : IsTokenization p R ts)
    (hx : ∀ t ∈ ts, t.length ≠ lim) : ref p lim 1 R = ref p lim 0 R := by
  generalize hn : R.length = n
  induction n using Nat.strongRecOn generalizing R ts with
  | _ n ih =>
    rcases hf : scanF p (skipD p R) with _ | ⟨i, w⟩
    · by_cases hne : skipD p R = []
      · rw [ref_nil_of _ _ _ _ hne, ref_nil_of _ _ _ _ hne]
      · rw [ref_none_of p lim 1 R hf hne, ref_none_of p lim 0 R hf hne]
        have := (isTokenization_skip p R _ (isTokenization_last p _ hf hne)).unique h
        have hl := hx (skipD p R) (by simp [← this])
        by_cases hlt : (skipD p R).length < lim
        · rw [if_pos (by omega), if_pos (by omega)]
        · rw [if_neg (by omega), if_neg (by omega)]
    · have hb := scanF_bound _ _ _ _ hf
      have hl := skipD_length_le p R
      have hi := scanF_pos p _ (skipD_skipD p R) i w hf
      obtain ⟨ts', hts⟩ := isTokenization_exists p ((skipD p R).drop (i + w))
      have := (isTokenization_skip p R _ (isTokenization_cons p _ i w ts' hf hi hts)).unique h
      rw [ref_some_of p lim 1 R i w hf, ref_some_of p lim 0 R i w hf,
        ih ((skipD p R).drop (i + w)).length (by simp only [List.length_drop]; omega) _ ts' hts
          (fun t ht => hx t (by simp [← this, ht])) rfl]

end Quark.Tokenizer
