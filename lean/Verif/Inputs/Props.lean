import Verif.Inputs.Model

namespace Quark.Inputs

variable {α : Type} [DecidableEq α]

/-! ### C34 -/

/-- The calls that concern one hash. -/
def about (h : α) (log : List (Call α)) : List (Call α) := log.filter (·.hash = h)

/-- The three ways in which an input gets into the cache: it is already committed; it passes verification; it does
not, and is deleted and then persisted successfully. -/
def Loaded (h : α) (ep : List (Call α)) : Prop :=
  ep = [.new h true] ∨
  ep = [.new h false, .verify h true] ∨
  ep = [.new h false, .verify h false, .delete h, .persist h true]

/-- The way in which loading fails. -/
def Failed (h : α) (ep : List (Call α)) : Prop :=
  ep = [.new h false, .verify h false, .delete h, .persist h false]

theorem load_spec (h : α) (b : Behaviour) :
    ((load h b).1 = true ∧ Loaded h (load h b).2) ∨ ((load h b).1 = false ∧ Failed h (load h b).2) := by
  obtain ⟨c, v, p⟩ := b
  cases c <;> cases v <;> cases p <;> simp [load, Loaded, Failed]

theorem load_about (h g : α) (b : Behaviour) :
    about g (load h b).2 = if h = g then (load h b).2 else [] := by
  obtain ⟨c, v, p⟩ := b
  by_cases hg : h = g <;> cases c <;> cases v <;> cases p <;> simp [load, about, Call.hash, hg]

theorem about_append (h : α) (a b : List (Call α)) : about h (a ++ b) = about h a ++ about h b := by
  simp [about]

/-- What the log says about every hash. -/
def Inv (m : Manager α) : Prop :=
  ∀ h, (h ∈ m.cached → ∃ pre ep, Loaded h ep ∧ about h m.log = pre ++ ep) ∧
    (h ∉ m.cached → about h m.log = [] ∨ (∃ pre, about h m.log = pre ++ [.release h]) ∨
      ∃ pre ep, Failed h ep ∧ about h m.log = pre ++ ep)

theorem inv_add {m : Manager α} (hm : Inv m) (h : α) (b : Behaviour) : Inv (add m h b).2 := by
  unfold add
  split
  · exact hm
  · rename_i hc
    intro g
    simp only [about_append, load_about]
    by_cases hg : h = g
    · subst hg
      rw [if_pos rfl]
      rcases load_spec h b with ⟨hr, hl⟩ | ⟨hr, hl⟩
      · rw [if_pos hr]
        exact ⟨fun _ => ⟨_, _, hl, rfl⟩, fun hn => absurd (by simp) hn⟩
      · rw [if_neg (by simp [hr])]
        exact ⟨fun hmem => absurd hmem hc, fun _ => Or.inr (Or.inr ⟨_, _, hl, rfl⟩)⟩
    · rw [if_neg hg, List.append_nil]
      have hiff : g ∈ (if (load h b).1 = true then h :: m.cached else m.cached) ↔ g ∈ m.cached := by
        split
        · simp only [List.mem_cons]
          exact ⟨fun hx => hx.resolve_left (fun e => hg e.symm), Or.inr⟩
        · rfl
      exact ⟨fun hx => (hm g).1 (hiff.1 hx), fun hx => (hm g).2 (fun hx' => hx (hiff.2 hx'))⟩

theorem inv_evict {m : Manager α} (hm : Inv m) (h : α) : Inv (evict m h) := by
  unfold evict
  split
  · intro g
    simp only [about_append]
    by_cases hg : h = g
    · subst hg
      refine ⟨fun hx => ?_, fun _ => Or.inr (Or.inl ⟨_, by simp [about, Call.hash]; rfl⟩)⟩
      simp at hx
    · have h0 : about g [Call.release h] = [] := by simp [about, Call.hash, hg]
      rw [h0, List.append_nil]
      have hiff : g ∈ m.cached.filter (· ≠ h) ↔ g ∈ m.cached := by
        simp only [List.mem_filter, decide_eq_true_eq, ne_eq, and_iff_left_iff_imp]
        exact fun _ e => hg e.symm
      exact ⟨fun hx => (hm g).1 (hiff.1 hx), fun hx => (hm g).2 (fun hx' => hx (hiff.2 hx'))⟩
  · exact hm

theorem inv_run (acts : List (Act α)) : Inv (acts.foldl step {}) := by
  have h0 : Inv ({} : Manager α) := fun h => ⟨by simp, fun _ => Or.inl (by simp [about])⟩
  suffices ∀ m : Manager α, Inv m → Inv (acts.foldl step m) from this _ h0
  induction acts with
  | nil => exact fun m hm => hm
  | cons a acts ih =>
    intro m hm
    apply ih
    cases a with
    | add h b => exact inv_add hm h b
    | evict h => exact inv_evict hm h

/-- **C34** (success). After any history of additions and evictions, if `Add` succeeds for a hash then the last
thing that happened to that input is that it was found committed, or verified, or deleted and then persisted
successfully, and it was not dropped since; and the input is cached. -/
theorem C34_success (acts : List (Act α)) (h : α) (b : Behaviour)
    (hok : (add (acts.foldl step {}) h b).1 = true) :
    h ∈ (add (acts.foldl step {}) h b).2.cached ∧
    ∃ pre ep, Loaded h ep ∧ about h (add (acts.foldl step {}) h b).2.log = pre ++ ep := by
  have hinv := inv_add (inv_run acts) h b
  have hmem : h ∈ (add (acts.foldl step {}) h b).2.cached := by
    unfold add at hok ⊢
    split at hok
    · rename_i hc; rw [if_pos hc]; exact hc
    · rename_i hc
      rw [if_neg hc]
      simp only at hok
      simp [hok]
  exact ⟨hmem, (hinv h).1 hmem⟩

/-- **C34** (failure). If `Add` fails, then the input was verified without success, deleted, and could not be
persisted; it is not cached, and what else is cached did not change. -/
theorem C34_failure (acts : List (Act α)) (h : α) (b : Behaviour)
    (hfail : (add (acts.foldl step {}) h b).1 = false) :
    h ∉ (add (acts.foldl step {}) h b).2.cached ∧
    (add (acts.foldl step {}) h b).2.cached = (acts.foldl step {}).cached ∧
    ∃ pre ep, Failed h ep ∧ about h (add (acts.foldl step {}) h b).2.log = pre ++ ep := by
  unfold add at hfail ⊢
  split at hfail
  · simp at hfail
  · rename_i hc
    rw [if_neg hc]
    simp only at hfail
    simp only [hfail, Bool.false_eq_true, if_false]
    refine ⟨hc, trivial, ?_⟩
    rcases load_spec h b with ⟨hr, _⟩ | ⟨_, hl⟩
    · rw [hr] at hfail; simp at hfail
    · exact ⟨_, _, hl, by rw [about_append, load_about, if_pos rfl]⟩

/-- **C34** (lookups of cached inputs). An input that is cached is handed out without any further call. -/
theorem C34_cached (acts : List (Act α)) (h : α) (b : Behaviour) (hc : h ∈ (acts.foldl step {}).cached) :
    add (acts.foldl step {}) h b = (true, acts.foldl step {}) := by
  unfold add; rw [if_pos hc]

/-! An input that is corrupt and cannot be regenerated, and one that can. -/
example : ((add (([.add 1 ⟨false, true, false⟩, .evict 1] : List (Act Nat)).foldl step {}) 1 ⟨false, false, false⟩)).1
    = false := by decide
example : (add (([.add 1 ⟨false, true, false⟩, .evict 1] : List (Act Nat)).foldl step {}) 1 ⟨false, false, true⟩).2.log
    = [.new 1 false, .verify 1 true, .release 1, .new 1 false, .verify 1 false, .delete 1, .persist 1 true] := by
  decide

/-! ### C38 -/

theorem read_hashed (r : HashReader) (n : Nat) :
    (r.read n).hashed ++ (r.read n).left = r.hashed ++ r.left := by
  simp [HashReader.read, List.append_assoc]

theorem readAll_spec (stream : List UInt8) (reads : List Nat) :
    (readAll stream reads).hashed ++ (readAll stream reads).left = stream ∧
    (readAll stream reads).length = (readAll stream reads).hashed.length := by
  suffices ∀ r : HashReader, r.hashed ++ r.left = stream → r.length = r.hashed.length →
      (reads.foldl HashReader.read r).hashed ++ (reads.foldl HashReader.read r).left = stream ∧
      (reads.foldl HashReader.read r).length = (reads.foldl HashReader.read r).hashed.length from
    this _ (by simp) rfl
  induction reads with
  | nil => exact fun r h1 h2 => ⟨h1, h2⟩
  | cons n reads ih =>
    intro r h1 h2
    refine ih _ (by rw [read_hashed, h1]) ?_
    simp [HashReader.read, h2]

theorem drain_spec (r : HashReader) (ns : List Nat) :
    (r.drain ns).hashed ++ (r.drain ns).left = r.hashed ++ r.left ∧
    (r.drain ns).length + r.hashed.length + r.hashed.length =
      r.length + (r.drain ns).hashed.length + (r.drain ns).hashed.length := by
  induction ns generalizing r with
  | nil => exact ⟨rfl, rfl⟩
  | cons n ns ih =>
    rw [HashReader.drain]
    obtain ⟨h1, h2⟩ := ih { r.read n with length := (r.read n).length + (r.left.take n).length }
    refine ⟨?_, ?_⟩
    · rw [h1]; exact read_hashed r n
    · simp only [HashReader.read, List.length_append] at h2 ⊢
      omega

/-- **C38** (the hash). For every stream, whatever was read before and however the rest arrives: when `Sum` has
read to the end of the stream (nothing is left), what was hashed is exactly the stream, in order and once. -/
theorem C38_sum (stream : List UInt8) (reads drains : List Nat)
    (hend : ((readAll stream reads).drain drains).left = []) :
    ((readAll stream reads).drain drains).hashed = stream := by
  have h1 := (drain_spec (readAll stream reads) drains).1
  rw [hend, List.append_nil, (readAll_spec stream reads).1] at h1
  exact h1

/-- **C38** (every prefix). At any time before that, what was hashed is the part of the stream that was read. -/
theorem C38_prefix (stream : List UInt8) (reads : List Nat) : (readAll stream reads).hashed <+: stream :=
  ⟨_, (readAll_spec stream reads).1⟩

/-- **C38** (length; partial: before `Sum` only, see `C38_length_after_sum`). As long as only `Read` was called,
`Length` is the number of bytes hashed. -/
theorem C38_length_partial (stream : List UInt8) (reads : List Nat) :
    (readAll stream reads).length = (readAll stream reads).hashed.length := (readAll_spec stream reads).2

/-- **C38 is false of `Length` after `Sum`**: every byte that `Sum` had to read is counted twice. -/
theorem C38_length_after_sum (stream : List UInt8) (reads drains : List Nat)
    (hend : ((readAll stream reads).drain drains).left = []) :
    ((readAll stream reads).drain drains).length = stream.length + (readAll stream reads).left.length := by
  have h1 := C38_sum stream reads drains hend
  have h2 := (drain_spec (readAll stream reads) drains).2
  have h3 := readAll_spec stream reads
  have h4 := congrArg List.length h3.1
  rw [h1] at h2
  rw [List.length_append] at h4
  omega

example : ((readAll [1, 2, 3, 4, 5] [2, 0, 1]).drain [1, 1, 0]).hashed = [1, 2, 3, 4, 5] ∧
    ((readAll [1, 2, 3, 4, 5] [2, 0, 1]).drain [1, 1, 0]).left = [] ∧
    ((readAll [1, 2, 3, 4, 5] [2, 0, 1]).drain [1, 1, 0]).length = 7 := by decide

/-! ### C70 -/

/-- What a request should come to. -/
def due (q : Request) : Answer := if q.found then .served else .notFound

/-- Requests one after the other: each does its two steps before the next one starts. -/
def oneByOne (is : List Nat) : List Nat := is.flatMap fun i => [i, i]

/-- The state of requests between which nobody is in the middle. -/
def Settled (qs : List Request) : Prop :=
  ∀ q ∈ qs, (q.pc = .start ∧ q.answer = none ∧ q.holds = 0) ∨
    (q.pc = .done ∧ q.answer = some (due q) ∧ q.holds = 0)

theorem settled_pair {s s' : Server} {i : Nat} (h : Settled s.requests)
    (hs : serveAll s [i, i] = some s') : Settled s'.requests := by
  simp only [serveAll, Option.bind_eq_some_iff] at hs
  obtain ⟨s1, h1, s2, h2, h3⟩ := hs
  cases h3
  unfold serve at h1
  cases hq : s.requests[i]? with
  | none => rw [hq] at h1; simp at h1
  | some q =>
    rw [hq] at h1
    have hlt : i < s.requests.length := (List.getElem?_eq_some_iff.1 hq).1
    have hmem : q ∈ s.requests := List.mem_of_getElem? hq
    rcases h q hmem with ⟨hp, ha, hh⟩ | ⟨hp, _, _⟩
    · simp only [hp] at h1
      cases h1
      unfold serve at h2
      simp only [List.getElem?_set_self hlt] at h2
      intro x hx
      cases hf : q.found with
      | true =>
        rw [hf] at h2
        simp only [Bool.not_true, Bool.false_eq_true, if_false, if_true, Option.some.injEq] at h2
        subst h2
        simp only [List.set_set] at hx
        rcases List.mem_or_eq_of_mem_set hx with hx | rfl
        · exact h x hx
        · right; simp [due]
      | false =>
        rw [hf] at h2
        simp only [Bool.not_false, if_true, Option.some.injEq] at h2
        subst h2
        simp only [List.set_set] at hx
        rcases List.mem_or_eq_of_mem_set hx with hx | rfl
        · exact h x hx
        · right; simp [due]
    · simp [hp] at h1

/-- **C70** (partial: requests that do not overlap; with overlapping ones see `C70_wrong_answer`,
`C70_panic`). When requests for inputs are served one after the other, in any order, each one is answered according
to its own lookup and gives back its reference. -/
theorem C70_sequential_partial (found : List Bool) (is : List Nat) (s : Server)
    (h : serveAll { requests := found.map fun f => { found := f } } (oneByOne is) = some s) :
    ∀ q ∈ s.requests, q.holds = 0 ∧ (q.pc = .done → q.answer = some (due q)) := by
  have : Settled s.requests := by
    have h0 : Settled ({ requests := found.map fun f => { found := f } } : Server).requests := by
      intro q hq
      simp only [List.mem_map] at hq
      obtain ⟨f, _, rfl⟩ := hq
      exact Or.inl ⟨rfl, rfl, rfl⟩
    generalize ({ requests := found.map fun f => { found := f } } : Server) = s0 at h h0
    induction is generalizing s0 with
    | nil => simp only [oneByOne, List.flatMap_nil, serveAll, Option.some.injEq] at h; subst h; exact h0
    | cons i is ih =>
      simp only [oneByOne, List.flatMap_cons, List.cons_append, List.nil_append, serveAll,
        Option.bind_eq_some_iff] at h
      obtain ⟨s1, h1, s2, h2, h3⟩ := h
      refine ih s2 h3 (settled_pair (s := s0) (i := i) h0 ?_)
      simp [serveAll, h1, h2]
  intro q hq
  rcases this q hq with ⟨hp, _, hh⟩ | ⟨_, ha, hh⟩
  · exact ⟨hh, by simp [hp]⟩
  · exact ⟨hh, fun _ => ha⟩

/-- What a request that is being served looks like while the shared variable says `e`. -/
def InOrder (e : Bool) (q : Request) : Prop :=
  match q.pc with
  | .start => q.answer = none ∧ q.holds = 0
  | .check => q.answer = none ∧ e = !q.found ∧ q.holds = if q.found then 1 else 0
  | .done => q.answer = some (due q) ∧ q.holds = 0

/-- **C70**, any interleaving (partial: all the lookups have the same result). When every input asked for exists, or none
does, all requests are answered according to their own lookup and give back their references, however they overlap. -/
theorem C70_uniform_partial (f : Bool) (n : Nat) (is : List Nat) (s : Server)
    (h : serveAll { requests := List.replicate n { found := f } } is = some s) :
    ∀ q ∈ s.requests, q.pc = .done → q.answer = some (if f then .served else .notFound) ∧ q.holds = 0 := by
  have main : ∀ (is : List Nat) (s0 s : Server), serveAll s0 is = some s →
      (∀ q ∈ s0.requests, q.found = f ∧ InOrder s0.err q) → ∀ q ∈ s.requests, q.found = f ∧ InOrder s.err q := by
    intro is
    induction is with
    | nil => intro s0 s h h0; simp only [serveAll, Option.some.injEq] at h; subst h; exact h0
    | cons i is ih =>
      intro s0 s h h0
      simp only [serveAll, Option.bind_eq_some_iff] at h
      obtain ⟨s1, h1, h2⟩ := h
      refine ih s1 s h2 ?_
      unfold serve at h1
      cases hq : s0.requests[i]? with
      | none => rw [hq] at h1; cases h1
      | some q =>
        rw [hq] at h1
        obtain ⟨hf, hi⟩ := h0 q (List.mem_of_getElem? hq)
        dsimp only at h1
        cases hp : q.pc with
        | start =>
          simp only [hp, Option.some.injEq] at h1
          simp only [InOrder, hp] at hi
          subst h1
          intro x hx
          rcases List.mem_or_eq_of_mem_set hx with hx | rfl
          · obtain ⟨g1, g2⟩ := h0 x hx
            refine ⟨g1, ?_⟩
            unfold InOrder at g2 ⊢
            split at g2
            · exact g2
            · exact ⟨g2.1, by rw [hf, g1], g2.2.2⟩
            · exact g2
          · exact ⟨hf, hi.1, rfl, rfl⟩
        | check =>
          simp only [InOrder, hp] at hi
          obtain ⟨ha, he, hh⟩ := hi
          simp only [hp] at h1
          have keep : ∀ y : Request, y.found = f → y.pc = .done → y.answer = some (due y) → y.holds = 0 →
              ∀ x ∈ s0.requests.set i y, x.found = f ∧ InOrder s0.err x := by
            intro y y1 y2 y3 y4 x hx
            rcases List.mem_or_eq_of_mem_set hx with hx | rfl
            · exact h0 x hx
            · exact ⟨y1, by simp only [InOrder, y2]; exact ⟨y3, y4⟩⟩
          cases hb : q.found with
          | true =>
            rw [hb] at he
            simp only [Bool.not_true] at he
            simp only [he, hb, Bool.false_eq_true, if_false, if_true, Option.some.injEq] at h1
            subst h1
            simp only [← he]
            exact keep _ (by rw [← hf, hb]) rfl (by simp [due]) rfl
          | false =>
            rw [hb] at he hh
            simp only [Bool.not_false] at he
            simp only [he, hb, if_true, Option.some.injEq] at h1
            subst h1
            simp only [← he]
            exact keep _ (by rw [← hf, hb]) rfl (by simp [due]) hh
        | done => simp only [hp] at h1; cases h1
  intro q hq hd
  obtain ⟨h1, h2⟩ := main is _ s h (by
    intro q hq
    obtain rfl := List.eq_of_mem_replicate hq
    exact ⟨rfl, rfl, rfl⟩) q hq
  simp only [InOrder, hd] at h2
  refine ⟨?_, h2.2⟩
  rw [h2.1, due, h1]

example : (serveAll { requests := List.replicate 2 { found := true } } [0, 1, 1, 0]).map
    (fun s => s.requests.map Request.answer) = some [some .served, some .served] := by decide

/-- **C70 is false for overlapping requests.** The two requests share `err`: a request whose input exists is
answered with 404 because another one failed in between, and its reference is never released, so the input can
never be evicted. -/
theorem C70_wrong_answer :
    ∃ (is : List Nat) (s : Server), serveAll { requests := [{ found := true }, { found := false }] } is = some s ∧
      ∃ q ∈ s.requests, q.found = true ∧ q.answer = some .notFound ∧ q.holds = 1 := by
  refine ⟨[0, 1, 0, 1], _, rfl, ?_⟩
  decide

/-- **C70 is false for overlapping requests**, the other way round: a request whose input does not exist goes on
because another one succeeded in between, and dereferences nil. -/
theorem C70_panic :
    ∃ (is : List Nat) (s : Server), serveAll { requests := [{ found := true }, { found := false }] } is = some s ∧
      ∃ q ∈ s.requests, q.found = false ∧ q.answer = some .panic := by
  refine ⟨[1, 0, 1, 0], _, rfl, ?_⟩
  decide

example : (serveAll { requests := [{ found := true }, { found := false }] } (oneByOne [1, 0])).map
    (fun s => s.requests.map Request.answer) = some [some .served, some .notFound] := by decide

end Quark.Inputs
