import Verif.Inputs.Props
import Mathlib.Data.List.Induction

/-!
# C70: what overlapping requests for inputs get, exactly
-/

namespace Quark.Inputs

/-- The server before any request was served; `found` says which of the inputs exist. -/
def waiting (found : List Bool) : Server := { requests := found.map fun f => { found := f } }

theorem serveAll_append (s : Server) (a b : List Nat) :
    serveAll s (a ++ b) = (serveAll s a).bind (serveAll · b) := by
  induction a generalizing s with
  | nil => rfl
  | cons x a ih =>
    simp only [List.cons_append, serveAll]
    cases serve s x with
    | none => rfl
    | some s' => simp [ih]

/-- What a request does to itself and to the others. -/
theorem serve_inv {s s' : Server} {i : Nat} (h : serve s i = some s') :
    ∃ q q', s.requests[i]? = some q ∧ s'.requests = s.requests.set i q' ∧ q'.found = q.found ∧
      ((q.pc = .start ∧ q'.pc = .check ∧ s'.err = (!q.found) ∧ q'.holds = if q.found then 1 else 0) ∨
       (q.pc = .check ∧ q'.pc = .done ∧ s'.err = s.err ∧
        q'.answer = some (if s.err then .notFound else if q.found then .served else .panic) ∧
        q'.holds = if s.err || !q.found then q.holds else 0)) := by
  unfold serve at h
  cases hq : s.requests[i]? with
  | none => rw [hq] at h; cases h
  | some q =>
    rw [hq] at h
    dsimp only at h
    refine ⟨q, ?_⟩
    cases hp : q.pc with
    | start =>
      simp only [hp, Option.some.injEq] at h
      subst h
      exact ⟨_, rfl, rfl, rfl, .inl ⟨rfl, rfl, rfl, rfl⟩⟩
    | check =>
      simp only [hp] at h
      by_cases he : s.err = true
      · rw [if_pos he] at h; cases h
        exact ⟨_, rfl, rfl, rfl, .inr ⟨rfl, rfl, rfl, by simp [he], by simp [he]⟩⟩
      · rw [if_neg he] at h
        by_cases hf : q.found = true
        · rw [if_pos hf] at h; cases h
          exact ⟨_, rfl, rfl, rfl, .inr ⟨rfl, rfl, rfl, by simp [he, hf], by simp [he, hf]⟩⟩
        · rw [if_neg hf] at h; cases h
          exact ⟨_, rfl, rfl, rfl, .inr ⟨rfl, rfl, rfl, by simp [he, hf], by simp [he, hf]⟩⟩
    | done => simp [hp] at h

/-- After a schedule: who exists, who has started, and whose lookup was the last. -/
structure After (found : List Bool) (l : List Nat) (s : Server) : Prop where
  known : ∀ k : Nat, (s.requests[k]?).map Request.found = found[k]?
  started : ∀ (k : Nat) (q : Request), s.requests[k]? = some q → (q.pc = .start ↔ k ∉ l)
  holds : ∀ (k : Nat) (q : Request), s.requests[k]? = some q → q.pc = .check → q.holds = if q.found then 1 else 0
  last : l = [] ∨ ∃ (j : Nat) (b1 b2 : List Nat) (f : Bool), l = b1 ++ j :: b2 ∧ j ∉ b1 ∧ (∀ k ∈ b2, k ∈ b1 ++ [j]) ∧ found[j]? = some f ∧
    s.err = !f

theorem after (found : List Bool) (l : List Nat) : ∀ s, serveAll (waiting found) l = some s → After found l s := by
  induction l using List.reverseRecOn with
  | nil =>
    intro s h
    cases h
    refine ⟨fun k => ?_, fun k q hq => ?_, fun k q hq hc => ?_, .inl rfl⟩
    · simp only [waiting, List.getElem?_map]
      cases found[k]? <;> rfl
    · simp only [waiting, List.getElem?_map] at hq
      obtain ⟨f, -, rfl⟩ := Option.map_eq_some_iff.mp hq
      simp
    · simp only [waiting, List.getElem?_map] at hq
      obtain ⟨f, -, rfl⟩ := Option.map_eq_some_iff.mp hq
      cases hc
  | append_singleton l i ih =>
    intro s h
    rw [serveAll_append] at h
    obtain ⟨s1, h1, h2⟩ := Option.bind_eq_some_iff.mp h
    simp only [serveAll] at h2
    obtain ⟨s2, h2, h3⟩ := Option.bind_eq_some_iff.mp h2
    cases h3
    have hA := ih s1 h1
    obtain ⟨q, q', hq, hset, hf, hcase⟩ := serve_inv h2
    have hlt := (List.getElem?_eq_some_iff.mp hq).1
    have hfi : found[i]? = some q.found := by rw [← hA.known i, hq]; rfl
    refine ⟨fun k => ?_, fun k x hx => ?_, fun k x hx hc => ?_, .inr ?_⟩
    · rw [hset]
      by_cases hki : i = k
      · subst hki
        rw [List.getElem?_set_self hlt, hfi]
        simp [hf]
      · rw [List.getElem?_set_ne hki]; exact hA.known k
    · rw [hset] at hx
      by_cases hki : i = k
      · subst hki
        rw [List.getElem?_set_self hlt] at hx
        cases hx
        rcases hcase with ⟨-, hc, -⟩ | ⟨-, hc, -⟩ <;> simp [hc]
      · rw [List.getElem?_set_ne hki] at hx
        rw [hA.started k x hx]
        simp [Ne.symm hki]
    · rw [hset] at hx
      by_cases hki : i = k
      · subst hki
        rw [List.getElem?_set_self hlt] at hx
        cases hx
        rcases hcase with ⟨-, -, -, hh⟩ | ⟨-, hd, -⟩
        · rw [hh, hf]
        · rw [hd] at hc; cases hc
      · rw [List.getElem?_set_ne hki] at hx
        exact hA.holds k x hx hc
    · rcases hcase with ⟨hp, -, he, -⟩ | ⟨hp, -, he, -⟩
      · exact ⟨i, l, [], q.found, by simp, (hA.started i q hq).mp hp, by simp, hfi, he⟩
      · have hil : i ∈ l := by
          by_contra hc
          rw [(hA.started i q hq).mpr hc] at hp
          cases hp
        rcases hA.last with rfl | ⟨j, b1, b2, f, hl, h4, h5, h6, h7⟩
        · simp at hil
        · refine ⟨j, b1, b2 ++ [i], f, by rw [hl]; simp, h4, ?_, h6, by rw [he, h7]⟩
          intro k hk
          rcases List.mem_append.mp hk with hk | hk
          · exact h5 k hk
          · rw [List.mem_singleton.mp hk]
            rw [hl] at hil
            rcases List.mem_append.mp hil with hil | hil
            · exact List.mem_append_left _ hil
            · rcases List.mem_cons.mp hil with hil | hil
              · simp [hil]
              · exact h5 i hil

theorem done_stays {s s' : Server} {i : Nat} {q : Request} (l : List Nat) (hq : s.requests[i]? = some q)
    (hp : q.pc = .done) (h : serveAll s l = some s') : s'.requests[i]? = some q := by
  induction l generalizing s with
  | nil => cases h; exact hq
  | cons x l ih =>
    simp only [serveAll] at h
    obtain ⟨s1, h1, h2⟩ := Option.bind_eq_some_iff.mp h
    refine ih ?_ h2
    obtain ⟨p, p', hp', hset, -, hcase⟩ := serve_inv h1
    have hxi : x ≠ i := by
      rintro rfl
      rw [hq] at hp'
      cases hp'
      rcases hcase with ⟨hc, -⟩ | ⟨hc, -⟩ <;> rw [hp] at hc <;> cases hc
    rw [hset, List.getElem?_set_ne hxi]
    exact hq

/-- **C70**, exactly, for every interleaving of any requests. Request `i` looks its input up, others act (`b`), then it
looks at the shared error and answers. Let `j` be the last request to look its input up in between, or `i` itself if
there is none: nothing after `j` in `b` is a first action. Then `i` answers 404 if the input of `j` was not found;
otherwise it serves its input if that was found, and dereferences nil if not.
The reference that it took is not given back exactly when it answers 404 although its input was found. -/
theorem C70_exact (found : List Bool) (a b c : List Nat) (i : Nat) (s : Server)
    (h : serveAll (waiting found) (a ++ i :: b ++ i :: c) = some s) (ha : i ∉ a) :
    ∃ fi j b1 b2 fj q, found[i]? = some fi ∧
      i :: b = b1 ++ j :: b2 ∧ j ∉ a ++ b1 ∧ (∀ k ∈ b2, k ∈ a ++ b1 ++ [j]) ∧ found[j]? = some fj ∧
      s.requests[i]? = some q ∧ q.pc = .done ∧
      q.answer = some (if !fj then .notFound else if fi then .served else .panic) ∧
      q.holds = (if !fj && fi then 1 else 0) := by
  rw [serveAll_append] at h
  obtain ⟨s1, h1, h2⟩ := Option.bind_eq_some_iff.mp h
  simp only [serveAll] at h2
  obtain ⟨s2, h2, h3⟩ := Option.bind_eq_some_iff.mp h2
  have hA := after found _ s1 h1
  obtain ⟨q, q', hq, hset, hf, hcase⟩ := serve_inv h2
  have hlt := (List.getElem?_eq_some_iff.mp hq).1
  have hfi : found[i]? = some q.found := by rw [← hA.known i, hq]; rfl
  rcases hcase with ⟨hp, -⟩ | ⟨hp, hd, he, hans, hh⟩
  · exact absurd ((hA.started i q hq).mp hp) (by simp)
  · rcases hA.last with hc | ⟨j, b1, b2, fj, hl, h4, h5, h6, h7⟩
    · simp at hc
    · have hq2 : s2.requests[i]? = some q' := by rw [hset, List.getElem?_set_self hlt]
      have hfin := done_stays c hq2 hd h3
      have hsplit : ∃ b1', b1 = a ++ b1' ∧ i :: b = b1' ++ j :: b2 := by
        rcases List.append_eq_append_iff.mp hl with ⟨x, hx1, hx2⟩ | ⟨x, hx1, hx2⟩
        · exact ⟨x, hx1, hx2⟩
        · cases x with
          | nil => exact ⟨[], by simpa using hx1.symm, by simpa using hx2.symm⟩
          | cons y x =>
            exfalso
            simp only [List.cons_append, List.cons.injEq] at hx2
            have hib : i ∈ b2 := by rw [hx2.2]; simp
            have := h5 i hib
            apply ha
            rw [hx1]
            rcases List.mem_append.mp this with h | h
            · exact List.mem_append_left _ h
            · rw [List.mem_singleton.mp h, hx2.1]; simp
      obtain ⟨b1', rfl, hb'⟩ := hsplit
      refine ⟨q.found, j, b1', b2, fj, q', hfi, hb', h4, h5, h6, hfin, hd, ?_, ?_⟩
      · rw [hans, h7]
      · rw [hh, hA.holds i q hq hp, h7]
        cases fj <;> cases q.found <;> rfl

/-- **C70** (partial: the condition). A request is answered according to its own lookup, and gives its reference back, if no other request with
the opposite result looks its input up between its own lookup and its answer. -/
theorem C70_undisturbed_partial (found : List Bool) (a b c : List Nat) (i : Nat) (s : Server)
    (h : serveAll (waiting found) (a ++ i :: b ++ i :: c) = some s) (ha : i ∉ a)
    (hu : ∀ j ∈ b, j ∉ a → found[j]? = found[i]?) :
    ∃ q, s.requests[i]? = some q ∧
      q.answer = some (if found[i]? = some true then .served else .notFound) ∧ q.holds = 0 := by
  obtain ⟨fi, j, b1, b2, fj, q, h1, h2, h3, h4, h5, h6, -, h7, h8⟩ := C70_exact found a b c i s h ha
  refine ⟨q, h6, ?_⟩
  have hij : found[j]? = found[i]? := by
    have : j ∈ i :: b := by rw [h2]; simp
    rcases List.mem_cons.mp this with rfl | hj
    · rfl
    · exact hu j hj (fun hc => h3 (List.mem_append_left _ hc))
  rw [h5, h1] at hij
  cases hij
  rw [h7, h1, h8]
  cases fi <;> exact ⟨rfl, rfl⟩

/-- Three requests; the first is undisturbed although the third asks at the same time, and the second gets the answer
of the third. -/
example : (serveAll (waiting [true, false, true]) ([0] ++ 1 :: [0, 2] ++ 1 :: [2])).map
    (fun s => s.requests.map Request.answer) = some [some .notFound, some .panic, some .served] := by decide

example : ∃ s, serveAll (waiting [true, false, true]) ([1] ++ 0 :: [2, 1] ++ 0 :: [2]) = some s ∧
    (∀ j ∈ [2, 1], j ∉ [1] → ([true, false, true] : List Bool)[j]? = ([true, false, true] : List Bool)[0]?) ∧
    (s.requests[0]?).map Request.answer = some (some .served) :=
  ⟨_, rfl, by decide, by decide⟩

end Quark.Inputs
