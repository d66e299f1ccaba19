import Verif.Publish.Recovery

/-!
# C99, C100: crashes and the runs that were being graded
-/

namespace Quark.Publish

open Quark.Requests (Guid Str Lookup Call Choice RunCtx)

theorem start_ctx {rows : Nat → Option Info} {c : Call} (h : Agreeing rows c) :
    ∀ r ∈ ctxs c.start, r.id ≠ 0 → ∃ i, rows r.id = some i ∧ i.guid = r.guid := by
  have one : ∀ id l, (id, l) ∈ c.asks → ∀ r, Requests.newRunContext id l = some r →
      ∃ i, rows r.id = some i ∧ i.guid = r.guid := by
    intro id l hm r hr
    rcases h _ hm with h1 | ⟨i, h1, h2⟩
    · simp only at h1; subst h1; simp [Requests.newRunContext] at hr
    · simp only at h2; subst h2
      simp only [Requests.newRunContext, Option.some.injEq] at hr
      subst hr
      exact ⟨i, h1, rfl⟩
  cases c with
  | new id l b =>
    simp only [Call.start]
    cases hr : Requests.newRunContext id l with
    | none => simp [ctxs]
    | some r =>
      intro q hq _
      simp only [ctxs, List.mem_singleton] at hq
      subst hq
      exact one id l (by simp [Call.asks]) q hr
  | grade rj db ids =>
    simp only [Call.start]
    cases hr : Requests.contexts ids with
    | none => simp [ctxs]
    | some rs =>
      intro q hq _
      simp only [ctxs] at hq
      obtain ⟨slow, h1, -⟩ := Requests.contexts_mem hr hq
      rcases h _ h1 with h2 | ⟨i, h2, h3⟩
      · simp at h2
      · simp only [Option.some.injEq, Prod.mk.injEq] at h3
        exact ⟨i, h2, h3.1.symm⟩
  | pending id l =>
    simp only [Call.start]
    cases hr : Requests.newRunContext id l with
    | none => simp [ctxs]
    | some r =>
      intro q hq _
      simp only [ctxs, List.mem_singleton] at hq
      subst hq
      exact one id l (by simp [Call.asks]) q hr
  | ephemeral s => intro q hq h0; simp [Call.start, ctxs] at hq; subst hq; exact absurd rfl h0
  | ci s => intro q hq h0; simp [Call.start, ctxs] at hq; subst hq; exact absurd rfl h0

theorem start_not_adding {c : Call} {p : Requests.Priority} {r : RunCtx} {rest : List RunCtx}
    (h : c.start = .adding p r rest) : r.id = 0 := by
  cases c <;> simp only [Call.start] at h
  case new id l b => split at h <;> cases h
  case grade rj db ids => split at h <;> cases h
  case pending id l => split at h <;> cases h
  case ephemeral s => cases h; rfl
  case ci s => cases h; rfl

theorem mem_set_cases {l : List Requests.Thread} {t : Nat} {x y : Requests.Thread} (h : y ∈ l.set t x) :
    y ∈ l ∨ y = x := List.mem_or_eq_of_mem_set h

theorem Sourced.weaken {rows : Nat → Option Info} {s s' : Requests.State} (h : Sourced rows s) {t : Nat}
    {th x : Requests.Thread} (hth : th ∈ s.threads) (hthr : s'.threads = s.threads.set t x)
    (hadd : s'.added = s.added) (hfiles : ∀ g, s.files g ≠ none → s'.files g ≠ none)
    (hx : ∀ r ∈ ctxs x, ∃ q ∈ ctxs th, q.id = r.id ∧ q.guid = r.guid)
    (hxa : ∀ p r rest, x = .adding p r rest → s'.files r.guid ≠ none) : Sourced rows s' := by
  refine ⟨?_, ?_, ?_⟩
  · intro y hy r hr h0
    rw [hthr] at hy
    rcases mem_set_cases hy with hy | rfl
    · exact h.ctx y hy r hr h0
    · obtain ⟨q, hq, h1, h2⟩ := hx r hr
      rw [← h1, ← h2]
      exact h.ctx th hth q hq (by rw [h1]; exact h0)
  · intro p r rest hy h0
    rw [hthr] at hy
    rcases mem_set_cases hy with hy | hy
    · exact hfiles _ (h.adding p r rest hy h0)
    · exact hxa p r rest hy.symm
  · intro e he h0
    rw [hadd] at he
    obtain ⟨i, h1, h2, h3⟩ := h.added e he h0
    exact ⟨i, h1, h2, hfiles _ h3⟩

theorem Sourced.step {rows : Nat → Option Info} {s : Requests.State} (h : Sourced rows s) (t : Nat) (ch : Choice) :
    Sourced rows (Requests.step s (.step t ch)) := by
  have hf : ∀ g, s.files g ≠ none → (Requests.step s (.step t ch)).files g ≠ none := fun g hg => files_mono hg
  revert hf
  simp only [Requests.step]
  split
  · intro _; exact h
  rename_i th ht
  intro hf
  have hth := List.mem_of_getElem? ht
  cases th with
  | opening r b =>
    cases ch <;> simp only [Requests.threadStep] at hf ⊢
    case fail => exact h.weaken hth rfl rfl hf (by simp [ctxs]) (by simp)
    all_goals
      cases hr : s.files r.guid with
      | some x => exact h.weaken hth rfl rfl (by simp) (by simp [ctxs]) (by simp)
      | none =>
        simp only [hr] at hf
        exact h.weaken hth rfl rfl hf (by simp [ctxs]) (by simp)
  | copying r b =>
    cases ch <;> simp only [Requests.threadStep] at hf ⊢ <;>
      exact h.weaken hth rfl rfl hf (by simp [ctxs]) (by simp)
  | injecting p rest =>
    have hfin : ∀ ok, Sourced rows (Requests.finish s t ok) := by
      intro ok
      obtain ⟨x, hx, hx2⟩ := Requests.finish_threads s t ok
      refine h.weaken hth hx (Requests.finish_added s t ok) (fun g hg => by rw [Requests.finish_files]; exact hg) ?_ ?_
      · rcases hx2 with rfl | rfl <;> simp [ctxs]
      · rcases hx2 with rfl | rfl <;> simp
    cases rest with
    | nil => exact hfin true
    | cons r rest =>
      cases ch <;> simp only [Requests.threadStep] at hf ⊢
      case fail => exact hfin false
      all_goals
        cases hr : s.files r.guid with
        | none => exact hfin false
        | some x =>
          refine h.weaken hth rfl rfl (by simp) ?_ ?_
          · intro q hq
            simp only [ctxs, List.mem_cons] at hq
            rcases hq with rfl | hq
            · exact ⟨r, by simp [ctxs], rfl, rfl⟩
            · exact ⟨q, by simp [ctxs, hq], rfl, rfl⟩
          · intro p' r' rest' he
            cases he
            simp [hr]
  | adding p r rest =>
    simp only [Requests.threadStep] at hf ⊢
    refine ⟨?_, ?_, ?_⟩
    · intro y hy q hq h0
      rcases mem_set_cases hy with hy | rfl
      · exact h.ctx y hy q hq h0
      · exact h.ctx _ hth q (by simp only [ctxs] at hq ⊢; exact List.mem_cons_of_mem _ hq) h0
    · intro p' r' rest' hy h0
      rcases mem_set_cases hy with hy | hy
      · exact h.adding p' r' rest' hy h0
      · cases hy
    · intro e he h0
      simp only [List.mem_append, List.mem_singleton] at he
      rcases he with he | rfl
      · exact h.added e he h0
      · obtain ⟨i, h1, h2⟩ := h.ctx _ hth r (by simp [ctxs]) h0
        exact ⟨i, h1, h2, h.adding p r rest hth h0⟩
  | checking ok => exact h.weaken hth rfl rfl hf (by simp [ctxs]) (by simp)
  | replied st => exact h

theorem sourced_run {rows : Nat → Option Info} {files : Guid → Option Str} {acts : List Requests.Act}
    (h : ∀ c, .call c ∈ acts → Agreeing rows c) : Sourced rows (Requests.run files acts) := by
  induction acts using List.reverseRecOn with
  | nil => exact ⟨by simp [Requests.run], by simp [Requests.run], by simp [Requests.run]⟩
  | append_singleton acts a ih =>
    have ih := ih (fun c hc => h c (List.mem_append_left _ hc))
    rw [Requests.run_append]
    cases a with
    | step t ch => exact ih.step t ch
    | call c =>
      simp only [Requests.step]
      refine ⟨?_, ?_, ih.added⟩
      · intro y hy
        rcases List.mem_append.mp hy with hy | hy
        · exact ih.ctx y hy
        · rw [List.mem_singleton.mp hy]
          exact start_ctx (h c (by simp))
      · intro p r rest hy h0
        rcases List.mem_append.mp hy with hy | hy
        · exact ih.adding p r rest hy h0
        · exact absurd (start_not_adding (List.mem_singleton.mp hy).symm) h0

/-! ## The iterations of the loop -/

theorem calls_append {files : Guid → Option Str} {acts : List Requests.Act} {a : Requests.Act} {t : Nat} {c : Call}
    (h : (Requests.run files acts).calls[t]? = some c) : (Requests.run files (acts ++ [a])).calls[t]? = some c := by
  rw [Requests.run_append]
  cases a with
  | call d =>
    simp only [Requests.step]
    rw [List.getElem?_append_left (List.getElem?_eq_some_iff.mp h).1]
    exact h
  | step t' ch =>
    simp only [Requests.step]
    split
    · exact h
    · rw [Requests.step_calls]; exact h

theorem mem_calls {files : Guid → Option Str} {acts : List Requests.Act} {t : Nat} {c : Call}
    (h : (Requests.run files acts).calls[t]? = some c) : Requests.Act.call c ∈ acts := by
  induction acts using List.reverseRecOn with
  | nil => simp [Requests.run] at h
  | append_singleton acts a ih =>
    rw [Requests.run_append] at h
    cases a with
    | call d =>
      simp only [Requests.step] at h
      rcases List.mem_append.mp (List.mem_of_getElem? h) with hm | hm
      · obtain ⟨u, hu, hud⟩ := List.getElem_of_mem hm
        by_cases hut : u = t
        · subst hut
          exact List.mem_append_left _ (ih (by rw [List.getElem?_eq_getElem hu, hud]))
        · rcases Nat.lt_or_ge t (Requests.run files acts).calls.length with hl | hl
          · rw [List.getElem?_append_left hl] at h
            exact List.mem_append_left _ (ih h)
          · rw [List.getElem?_append_right hl] at h
            have h0 : t - (Requests.run files acts).calls.length = 0 := by
              have := (List.getElem?_eq_some_iff.mp h).1
              simp only [List.length_singleton] at this
              omega
            rw [h0] at h
            simp only [List.getElem?_cons_zero, Option.some.injEq] at h
            subst h
            simp
      · rw [List.mem_singleton.mp hm]; simp
    | step t' ch =>
      simp only [Requests.step] at h
      split at h
      · exact List.mem_append_left _ (ih h)
      · rw [Requests.step_calls] at h
        exact List.mem_append_left _ (ih h)

/-- When the source is there, an iteration of the loop is given up only because something failed. -/
theorem pending_failed {files : Guid → Option Str} {acts : List Requests.Act} {t id : Nat} {g : Guid} {slow : Bool}
    (hg : files g ≠ none) (hc : (Requests.run files acts).calls[t]? = some (.pending id (some (g, slow)))) {st : Nat}
    (ht : (Requests.run files acts).threads[t]? = some (.replied st)) (hst : st ≠ 200) :
    Requests.Act.step t .fail ∈ acts := by
  induction acts using List.reverseRecOn with
  | nil => simp [Requests.run] at hc
  | append_singleton acts a ih =>
    have hinv := Requests.inv_run files acts
    have hfile : (Requests.run files acts).files g ≠ none := files_mono_run hg
    rw [Requests.run_append] at hc ht
    cases a with
    | call c =>
      simp only [Requests.step] at hc ht
      rcases Nat.lt_or_ge t (Requests.run files acts).calls.length with hl | hl
      · rw [List.getElem?_append_left hl] at hc
        rw [List.getElem?_append_left (by rw [← hinv.len]; exact hl)] at ht
        exact List.mem_append_left _ (ih hc ht)
      · rw [List.getElem?_append_right hl] at hc
        rw [List.getElem?_append_right (by rw [← hinv.len]; exact hl)] at ht
        have h0 : t - (Requests.run files acts).calls.length = 0 := by
          have := (List.getElem?_eq_some_iff.mp hc).1
          simp only [List.length_singleton] at this
          omega
        rw [h0] at hc
        rw [← hinv.len, h0] at ht
        simp only [List.getElem?_cons_zero, Option.some.injEq] at hc ht
        subst hc
        simp [Call.start, Requests.newRunContext] at ht
    | step t' ch =>
      simp only [Requests.step] at hc ht
      split at ht
      · rename_i hn
        rw [hn] at hc
        exact List.mem_append_left _ (ih hc ht)
      · rename_i th hth
        rw [hth] at hc
        simp only [Requests.step_calls] at hc
        have hlt := (List.getElem?_eq_some_iff.mp hth).1
        by_cases htt : t' = t
        · subst htt
          have hok := hinv.ok _ _ _ hc hth
          simp only [Requests.ThreadOk, Call.runs, Requests.newRunContext, Option.map_some] at hok
          cases th with
          | opening r b => simp only at hok; obtain ⟨⟨_, _, h1⟩, -⟩ := hok; cases h1
          | copying r b => simp only at hok; obtain ⟨⟨_, _, _, h1⟩, -⟩ := hok; cases h1
          | injecting p rest =>
            cases rest with
            | nil =>
              simp only [Requests.threadStep] at ht
              rw [Requests.finish_other hc rfl] at ht
              simp only [if_true] at ht
              rw [List.getElem?_set_self hlt] at ht
              cases ht; exact absurd rfl hst
            | cons r rest =>
              have hrg : r.guid = g := by
                have := hok.2
                cases hd : (Requests.addedBy (Requests.run files acts) t').map Requests.key with
                | nil =>
                  rw [hd] at this
                  simp [Requests.fin] at this
                  exact this.1.2.1
                | cons k ks =>
                  rw [hd] at this
                  have := congrArg List.length this
                  simp at this
              cases ch <;> simp only [Requests.threadStep, hrg] at ht
              case fail => simp
              all_goals
                obtain ⟨x, hx⟩ := Option.ne_none_iff_exists'.mp hfile
                rw [hx] at ht
                simp only at ht
                rw [List.getElem?_set_self hlt] at ht
                cases ht
          | adding p r rest =>
            simp only [Requests.threadStep] at ht
            rw [List.getElem?_set_self hlt] at ht
            cases ht
          | checking ok => cases hok.1
          | replied st' =>
            simp only [Requests.threadStep] at ht
            exact List.mem_append_left _ (ih hc ht)
        · have hsame : (Requests.threadStep (Requests.run files acts) t' ch th).threads[t]? =
              (Requests.run files acts).threads[t]? := by
            exact Requests.threads_other htt
          rw [hsame] at ht
          exact List.mem_append_left _ (ih hc ht)

/-- An iteration that was answered with success has given its run to the queue. -/
theorem pending_done {files : Guid → Option Str} {acts : List Requests.Act} {t id : Nat} {lookup : Lookup}
    (hc : (Requests.run files acts).calls[t]? = some (.pending id lookup))
    (ht : (Requests.run files acts).threads[t]? = some (.replied 200)) :
    id ∈ (Requests.run files acts).added.map fun e => e.2.id := by
  have hok := (Requests.inv_run files acts).ok _ _ _ hc ht
  cases lookup with
  | none => simp [Requests.ThreadOk, Call.runs, Requests.newRunContext] at hok
  | some p =>
    obtain ⟨g, slow⟩ := p
    simp only [Requests.ThreadOk, Call.runs, Requests.newRunContext, Option.map_some] at hok
    rcases hok with ⟨-, hok⟩ | ⟨h, -⟩ | ⟨h, -⟩
    rotate_left 2
    · cases h
    · unfold Requests.Full at hok
      cases hd : Requests.addedBy (Requests.run files acts) t with
      | nil => rw [hd] at hok; simp at hok
      | cons r rs =>
        rw [hd] at hok
        simp [Requests.key, Requests.fin] at hok
        have hm : (t, r) ∈ (Requests.run files acts).added :=
          Requests.mem_addedBy.mp (by rw [hd]; simp)
        exact List.mem_map.mpr ⟨_, hm, hok.1.1⟩
    · exact absurd rfl h

/-! ## The invariant -/

structure Safe (w : World) : Prop where
  agree : ∀ c, .call c ∈ w.acts → Agreeing w.rows c
  past : ∀ id ∈ w.earlier, id ≠ 0 → ∃ i, w.rows id = some i ∧ w.disk i.guid ≠ none
  kept : ∀ id ∈ w.earlier, id ≠ 0 → (∃ i, w.rows id = some i ∧ i.ready = true) ∨ id ∈ w.queued ∨
    id ∈ w.recovering ∨ ∃ (t : Nat) (l : Lookup), w.req.calls[t]? = some (.pending id l)

theorem Agreeing.mono {rows rows' : Nat → Option Info} {c : Call} (h : Agreeing rows c)
    (hr : ∀ id i, rows id = some i → ∃ i', rows' id = some i' ∧ i'.guid = i.guid ∧ i'.slow = i.slow) :
    Agreeing rows' c := by
  intro p hp
  rcases h p hp with h1 | ⟨i, h1, h2⟩
  · exact .inl h1
  · obtain ⟨i', h3, h4, h5⟩ := hr _ _ h1
    exact .inr ⟨i', h3, by rw [h2, h4, h5]⟩

theorem lookup_agrees (w : World) (id : Nat) (ok : Bool) :
    w.lookup id ok = none ∨ ∃ i, w.rows id = some i ∧ w.lookup id ok = some (i.guid, i.slow) := by
  unfold World.lookup
  cases ok with
  | false => exact .inl rfl
  | true =>
    cases h : w.rows id with
    | none => exact .inl rfl
    | some i => exact .inr ⟨i, rfl, by simp⟩

theorem queued_append {files : Guid → Option Str} {acts : List Requests.Act} {a : Requests.Act} {id : Nat}
    (h : id ∈ (Requests.run files acts).added.map fun e => e.2.id) :
    id ∈ (Requests.run files (acts ++ [a])).added.map fun e => e.2.id := by
  rw [Requests.run_append]
  cases a with
  | call c => exact h
  | step t ch =>
    simp only [Requests.step]
    split
    · exact h
    · rename_i th _
      cases th with
      | opening r b => cases ch <;> simp only [Requests.threadStep] <;> (try split) <;> exact h
      | copying r b => cases ch <;> exact h
      | injecting p rest =>
        have hfin : ∀ ok, id ∈ (Requests.finish (Requests.run files acts) t ok).added.map fun e => e.2.id := by
          intro ok; rw [Requests.finish_added]; exact h
        cases rest with
        | nil => exact hfin true
        | cons r rest =>
          cases ch <;> simp only [Requests.threadStep]
          case fail => exact hfin false
          all_goals (split; exact hfin false; exact h)
      | adding p r rest =>
        simp only [Requests.threadStep, List.map_append, List.mem_append]
        exact .inl h
      | checking ok => exact h
      | replied st => exact h

theorem Safe.sourced {w : World} (h : Safe w) {id : Nat} (hq : id ∈ w.queued) (h0 : id ≠ 0) :
    ∃ i, w.rows id = some i ∧ w.req.files i.guid ≠ none := by
  obtain ⟨e, he, rfl⟩ := List.mem_map.mp hq
  obtain ⟨i, h1, h2, h3⟩ := (sourced_run (files := w.disk) h.agree).added e he h0
  exact ⟨i, h1, by rw [h2]; exact h3⟩

/-- More of the same process: the handlers went on, rows were inserted or became ready. -/
theorem Safe.more {w w' : World} (h : Safe w) (hd : w'.disk = w.disk) (he : w'.earlier = w.earlier)
    (hrows : ∀ id i, w.rows id = some i → ∃ i', w'.rows id = some i' ∧ i'.guid = i.guid ∧ i'.slow = i.slow ∧
      (i.ready = true → i'.ready = true))
    (hagree : ∀ c, .call c ∈ w'.acts → Agreeing w'.rows c)
    (hq : ∀ id, id ∈ w.queued → id ∈ w'.queued)
    (hcalls : ∀ (t : Nat) (c : Call), w.req.calls[t]? = some c → w'.req.calls[t]? = some c)
    (hrec : ∀ id ∈ w.recovering, id ∈ w'.recovering ∨
      ∃ (t : Nat) (l : Lookup), w'.req.calls[t]? = some (.pending id l)) : Safe w' := by
  refine ⟨hagree, ?_, ?_⟩
  · intro id hid h0
    rw [he] at hid
    obtain ⟨i, h1, h2⟩ := h.past id hid h0
    obtain ⟨i', h3, h4, -⟩ := hrows id i h1
    exact ⟨i', h3, by rw [h4, hd]; exact h2⟩
  · intro id hid h0
    rw [he] at hid
    rcases h.kept id hid h0 with ⟨i, h1, h2⟩ | h1 | h1 | ⟨t, l, h1⟩
    · obtain ⟨i', h3, -, -, h5⟩ := hrows id i h1
      exact .inl ⟨i', h3, h5 h2⟩
    · exact .inr (.inl (hq id h1))
    · exact .inr (.inr (hrec id h1))
    · exact .inr (.inr (.inr ⟨t, l, hcalls t _ h1⟩))

theorem Safe.next {w w' : World} (h : Safe w) (hn : Next w w') : Safe w' := by
  have same : ∀ id i, w.rows id = some i → ∃ i', w.rows id = some i' ∧ i'.guid = i.guid ∧ i'.slow = i.slow ∧
      (i.ready = true → i'.ready = true) := fun _ i hi => ⟨i, hi, rfl, rfl, fun h => h⟩
  have acts : ∀ a, (∀ c, a = .call c → Agreeing w.rows c) → ∀ c, .call c ∈ w.acts ++ [a] → Agreeing w.rows c := by
    intro a ha c hc
    rcases List.mem_append.mp hc with hc | hc
    · exact h.agree c hc
    · exact ha c (List.mem_singleton.mp hc).symm
  cases hn with
  | insert id guid slow h0 hnone =>
    have hrows : ∀ q i, w.rows q = some i → ∃ i',
        Function.update w.rows id (some (⟨guid, slow, false⟩ : Info)) q = some i' ∧ i'.guid = i.guid ∧
          i'.slow = i.slow ∧ (i.ready = true → i'.ready = true) := by
      intro q i hq
      have hne : q ≠ id := by rintro rfl; rw [hnone] at hq; cases hq
      exact ⟨i, by rw [Function.update_of_ne hne]; exact hq, rfl, rfl, fun h => h⟩
    refine h.more rfl rfl hrows ?_ (fun _ h => h) (fun _ _ h => h) (fun _ h => .inl h)
    intro c hc
    refine (h.agree c hc).mono fun q i hq => ?_
    obtain ⟨i', h1, h2, h3, -⟩ := hrows q i hq
    exact ⟨i', h1, h2, h3⟩
  | request c hc =>
    refine h.more rfl rfl same ?_ (fun _ h => queued_append h) (fun _ _ h => calls_append h) (fun _ h => .inl h)
    refine acts _ ?_
    rintro c' hcc
    cases hcc
    intro p hp
    cases c with
    | new id l b =>
      simp only [Call.asks, List.mem_singleton] at hp
      subst hp
      obtain ⟨ok, rfl⟩ := hc
      exact lookup_agrees w id ok
    | grade rj db ids =>
      obtain ⟨ok, ho⟩ := hc p hp
      rw [ho]; exact lookup_agrees w p.1 ok
    | pending id l => exact hc.elim
    | ephemeral s => simp [Call.asks] at hp
    | ci s => simp [Call.asks] at hp
  | step t ch =>
    refine h.more rfl rfl same ?_ (fun _ h => queued_append h) (fun _ _ h => calls_append h) (fun _ h => .inl h)
    exact acts _ (by rintro c hc; cases hc)
  | finish id hid =>
    have hrows : ∀ q i, w.rows q = some i → ∃ i',
        Function.update w.rows id ((w.rows id).map fun i => { i with ready := true }) q = some i' ∧
          i'.guid = i.guid ∧ i'.slow = i.slow ∧ (i.ready = true → i'.ready = true) := by
      intro q i hq
      by_cases hne : q = id
      · subst hne
        exact ⟨{ i with ready := true }, by simp [hq], rfl, rfl, fun _ => rfl⟩
      · exact ⟨i, by rw [Function.update_of_ne hne]; exact hq, rfl, rfl, fun h => h⟩
    refine h.more rfl rfl hrows ?_ (fun _ h => h) (fun _ _ h => h) (fun _ h => .inl h)
    intro c hc
    refine (h.agree c hc).mono fun q i hq => ?_
    obtain ⟨i', h1, h2, h3, -⟩ := hrows q i hq
    exact ⟨i', h1, h2, h3⟩
  | restart ids hnd hids =>
    have hrow : ∀ id ∈ w.earlier ++ w.queued, id ≠ 0 → ∃ i, w.rows id = some i ∧ w.req.files i.guid ≠ none := by
      intro id hid h0
      rcases List.mem_append.mp hid with hid | hid
      · obtain ⟨i, h1, h2⟩ := h.past id hid h0
        exact ⟨i, h1, files_mono_run h2⟩
      · exact h.sourced hid h0
    refine ⟨by simp, hrow, ?_⟩
    intro id hid h0
    obtain ⟨i, h1, -⟩ := hrow id hid h0
    cases hr : i.ready with
    | true => exact .inl ⟨i, h1, hr⟩
    | false => exact .inr (.inr (.inl ((hids id).mpr ⟨i, h1, hr⟩)))
  | recover id rest ok hrec hidle =>
    refine h.more rfl rfl same ?_ (fun _ h => queued_append h) (fun _ _ h => calls_append h) ?_
    · refine acts _ ?_
      rintro c' hcc
      cases hcc
      intro p hp
      simp only [Call.asks, List.mem_singleton] at hp
      subst hp
      exact lookup_agrees w id ok
    · intro q hq
      rw [hrec] at hq
      rcases List.mem_cons.mp hq with rfl | hq
      · refine .inr ⟨w.req.calls.length, w.lookup q ok, ?_⟩
        simp only [World.req]
        rw [Requests.run_append]
        simp [Requests.step]
      · exact .inl hq

theorem Reach.safe {w : World} (h : Reach w) : Safe w := by
  induction h with
  | init => exact ⟨by simp, by simp, by simp⟩
  | next _ hn ih => exact ih.next hn

/-! ## C99 -/

/-- C99: no run is lost by a crash. Whatever was ever given to the queue, by this process or by an earlier one that was
killed at any point, has its result recorded, or was given to the queue by this process, or is still to be looked at by
the loop at start-up, or is being looked at; or that iteration of the loop failed, and then because a lookup or an
operation failed (not because its source is missing). -/
theorem C99_not_lost {w : World} (h : Reach w) {id : Nat} (h0 : id ≠ 0) (hid : id ∈ w.earlier ∨ id ∈ w.queued) :
    (∃ i, w.rows id = some i ∧ i.ready = true) ∨ id ∈ w.queued ∨ id ∈ w.recovering ∨
    ∃ (t : Nat) (l : Lookup) (th : Requests.Thread), w.req.calls[t]? = some (.pending id l) ∧
      w.req.threads[t]? = some th ∧ ((∀ st, th ≠ .replied st) ∨ l = none ∨ .step t .fail ∈ w.acts) := by
  rcases hid with hid | hid
  swap
  · exact .inr (.inl hid)
  rcases h.safe.kept id hid h0 with h1 | h1 | h1 | ⟨t, l, h1⟩
  · exact .inl h1
  · exact .inr (.inl h1)
  · exact .inr (.inr (.inl h1))
  · have hlen := (Requests.inv_run w.disk w.acts).len
    obtain ⟨th, hth⟩ : ∃ th, w.req.threads[t]? = some th :=
      ⟨_, List.getElem?_eq_getElem (by rw [World.req, ← hlen]; exact (List.getElem?_eq_some_iff.mp h1).1)⟩
    by_cases hst : ∃ st, th = .replied st
    swap
    · exact .inr (.inr (.inr ⟨t, l, th, h1, hth, .inl fun st hst' => hst ⟨st, hst'⟩⟩))
    obtain ⟨st, rfl⟩ := hst
    by_cases h200 : st = 200
    · subst h200
      exact .inr (.inl (pending_done h1 hth))
    · cases l with
      | none => exact .inr (.inr (.inr ⟨t, none, _, h1, hth, .inr (.inl rfl)⟩))
      | some p =>
        obtain ⟨g, slow⟩ := p
        refine .inr (.inr (.inr ⟨t, _, _, h1, hth, .inr (.inr ?_)⟩))
        have hcall : Requests.Act.call (.pending id (some (g, slow))) ∈ w.acts := mem_calls h1
        rcases h.safe.agree _ hcall (id, some (g, slow)) (by simp [Call.asks]) with h2 | ⟨i, h2, h3⟩
        · simp at h2
        · simp only [Option.some.injEq, Prod.mk.injEq] at h3
          obtain ⟨i', h4, h5⟩ := h.safe.past id hid h0
          simp only at h2
          rw [h2] at h4
          cases h4
          exact pending_failed (by rw [h3.1]; exact h5) h1 hth h200

/-- C99, once the loop is done and if nothing failed in it, every run that was given to the queue by an earlier
process and has no result was given to the queue again. -/
theorem C99_all_recovered {w : World} (h : Reach w) (hrec : w.recovering = [])
    (hdone : ∀ (t id : Nat) (l : Lookup), w.req.calls[t]? = some (.pending id l) →
      l ≠ none ∧ .step t .fail ∉ w.acts ∧ ∃ st, w.req.threads[t]? = some (.replied st))
    {id : Nat} (h0 : id ≠ 0) (hid : id ∈ w.earlier) {i : Info} (hrow : w.rows id = some i) (hi : i.ready = false) :
    id ∈ w.queued := by
  rcases C99_not_lost h h0 (.inl hid) with ⟨i', h1, h2⟩ | h1 | h1 | ⟨t, l, th, h1, h2, h3⟩
  · rw [hrow] at h1; cases h1; rw [hi] at h2; cases h2
  · exact h1
  · rw [hrec] at h1; cases h1
  · obtain ⟨k1, k2, st, k3⟩ := hdone t id l h1
    rw [h2] at k3
    cases k3
    rcases h3 with h3 | h3 | h3
    · exact absurd rfl (h3 st)
    · exact absurd h3 k1
    · exact absurd h3 k2

/-! ## C100: once, with the whole source -/

/-- The runs the loop at start-up has looked at. -/
def looked (calls : List Call) : List Nat :=
  calls.filterMap fun c => match c with
    | .pending id _ => some id
    | _ => none

theorem run_calls_call (files : Guid → Option Str) (acts : List Requests.Act) (c : Call) :
    (Requests.run files (acts ++ [.call c])).calls = (Requests.run files acts).calls ++ [c] := by
  rw [Requests.run_append]; rfl

theorem run_calls_step (files : Guid → Option Str) (acts : List Requests.Act) (t : Nat) (ch : Choice) :
    (Requests.run files (acts ++ [.step t ch])).calls = (Requests.run files acts).calls := by
  rw [Requests.run_append]
  simp only [Requests.step]
  split
  · rfl
  · rw [Requests.step_calls]

theorem Reach.distinct {w : World} (h : Reach w) : (looked w.req.calls ++ w.recovering).Nodup := by
  induction h with
  | init => simp [World.req, Requests.run, looked]
  | @next w w' _ hn ih =>
    cases hn with
    | insert id guid slow h0 hnone => exact ih
    | request c hc =>
      simp only [World.req, run_calls_call] at ih ⊢
      have : looked ((Requests.run w.disk w.acts).calls ++ [c]) = looked (Requests.run w.disk w.acts).calls := by
        cases c <;> simp [looked]
        exact hc
      rw [this]; exact ih
    | step t ch =>
      simp only [World.req, run_calls_step] at ih ⊢
      exact ih
    | finish id hid => exact ih
    | restart ids hnd hids => simpa [World.req, Requests.run, looked] using hnd
    | recover id rest ok hrec hidle =>
      simp only [World.req, run_calls_call] at ih ⊢
      have : looked ((Requests.run w.disk w.acts).calls ++ [.pending id (w.lookup id ok)]) =
          looked (Requests.run w.disk w.acts).calls ++ [id] := by simp [looked]
      rw [this]
      rw [hrec] at ih
      simpa using ih

theorem looked_inj {calls : List Call} (h : (looked calls).Nodup) {t t' : Nat} {id : Nat} {l l' : Lookup}
    (h1 : calls[t]? = some (.pending id l)) (h2 : calls[t']? = some (.pending id l')) : t = t' := by
  induction calls generalizing t t' with
  | nil => simp at h1
  | cons c calls ih =>
    have hmem : ∀ {u : Nat} {l : Lookup}, calls[u]? = some (.pending id l) → id ∈ looked calls := fun hu =>
      List.mem_filterMap.mpr ⟨_, List.mem_of_getElem? hu, rfl⟩
    have htail : (looked calls).Nodup := by
      unfold looked at h
      rw [List.filterMap_cons] at h
      split at h
      · exact h
      · exact (List.nodup_cons.mp h).2
    cases t with
    | zero =>
      simp only [List.getElem?_cons_zero, Option.some.injEq] at h1
      subst h1
      cases t' with
      | zero => rfl
      | succ t' =>
        simp only [List.getElem?_cons_succ] at h2
        simp only [looked, List.filterMap_cons] at h
        exact absurd (hmem h2) (List.nodup_cons.mp h).1
    | succ t =>
      simp only [List.getElem?_cons_succ] at h1
      cases t' with
      | zero =>
        simp only [List.getElem?_cons_zero, Option.some.injEq] at h2
        subst h2
        simp only [looked, List.filterMap_cons] at h
        exact absurd (hmem h1) (List.nodup_cons.mp h).1
      | succ t' =>
        simp only [List.getElem?_cons_succ] at h2
        rw [ih htail h1 h2]

/-- C100, the loop by itself: since the grader started, it has given each run to the queue at most once. Missing: that
nobody else does, and that the source is complete; neither is true. -/
theorem C100_once_partial {w : World} (h : Reach w) {t t' id : Nat} {l l' : Lookup} {r r' : RunCtx}
    (hc : w.req.calls[t]? = some (.pending id l)) (hr : (t, r) ∈ w.req.added)
    (hc' : w.req.calls[t']? = some (.pending id l')) (hr' : (t', r') ∈ w.req.added) :
    t = t' ∧ r = r' ∧ r.id = id ∧ w.req.added.countP (fun e => e.1 == t) = 1 := by
  obtain rfl : t = t' := looked_inj (List.nodup_append.mp h.distinct).1 hc hc'
  have hinv := Requests.inv_run w.disk w.acts
  have hthr : ∃ th, w.req.threads[t]? = some th :=
    ⟨_, List.getElem?_eq_getElem (by rw [World.req, ← hinv.len]; exact (List.getElem?_eq_some_iff.mp hc).1)⟩
  obtain ⟨th, hth⟩ := hthr
  have hok := hinv.ok t _ th hc hth
  have hmem : r ∈ Requests.addedBy w.req t := Requests.mem_addedBy.mpr hr
  have hmem' : r' ∈ Requests.addedBy w.req t := Requests.mem_addedBy.mpr hr'
  have hcount : w.req.added.countP (fun e => e.1 == t) = (Requests.addedBy w.req t).length := by
    simp [Requests.addedBy, List.countP_eq_length_filter, beq_eq_decide]
  have hone : ∃ q, Requests.addedBy w.req t = [q] ∧ q.id = id := by
    cases l with
    | none =>
      simp only [Requests.ThreadOk, Call.runs, Requests.newRunContext, Option.map_none] at hok
      rw [show Requests.addedBy w.req t = [] from hok.2] at hmem
      cases hmem
    | some p =>
      obtain ⟨g, slow⟩ := p
      simp only [Requests.ThreadOk, Call.runs, Requests.newRunContext, Option.map_some] at hok
      have key : ∀ (done : List RunCtx) (rest : List (Nat × Guid × Requests.Priority)) (k : Nat × Guid × Requests.Priority),
          k.1 = id → done.map Requests.key ++ rest = [k] → r ∈ done → ∃ q, done = [q] ∧ q.id = id := by
        intro done rest k hk he hd
        cases done with
        | nil => cases hd
        | cons q qs =>
          cases qs with
          | nil =>
            simp only [List.map_cons, List.map_nil, List.singleton_append, List.cons.injEq] at he
            exact ⟨q, rfl, by rw [← hk, ← he.1]; rfl⟩
          | cons q' qs => have := congrArg List.length he; simp at this
      cases th with
      | opening q b => simp only at hok; obtain ⟨⟨_, _, h1⟩, -⟩ := hok; cases h1
      | copying q b => simp only at hok; obtain ⟨⟨_, _, _, h1⟩, -⟩ := hok; cases h1
      | injecting p rest => exact key _ _ _ rfl hok.2 hmem
      | adding p q rest => exact key _ _ _ rfl hok.2 hmem
      | checking ok => cases hok.1
      | replied st =>
        rcases hok with ⟨-, hok⟩ | ⟨-, q, rest, hok⟩ | ⟨hok, -⟩
        rotate_left 2
        · cases hok
        · exact key _ [] _ rfl (by rw [List.append_nil]; exact hok) hmem
        · exact key _ _ _ rfl hok hmem
  obtain ⟨q, hq, hqid⟩ := hone
  rw [hq] at hmem hmem' hcount
  simp only [List.mem_singleton] at hmem hmem'
  subst hmem hmem'
  exact ⟨rfl, rfl, hqid, hcount⟩

/-! ### Complete sources -/

theorem threads_other (s : Requests.State) {t t' : Nat} (h : t' ≠ t) (ch : Choice) (th : Requests.Thread) :
    (Requests.threadStep s t' ch th).threads[t]? = s.threads[t]? := by
  exact Requests.threads_other h

/-- A handler that copies a body is serving `/run/new/` for that submission. -/
theorem copying_call {files : Guid → Option Str} {acts : List Requests.Act} {t : Nat} {r : RunCtx} {b : Str}
    (h : (Requests.run files acts).threads[t]? = some (.copying r b)) :
    ∃ id slow body, (Requests.run files acts).calls[t]? = some (.new id (some (r.guid, slow)) body) := by
  have hinv := Requests.inv_run files acts
  obtain ⟨c, hc⟩ : ∃ c, (Requests.run files acts).calls[t]? = some c :=
    ⟨_, List.getElem?_eq_getElem (by rw [hinv.len]; exact (List.getElem?_eq_some_iff.mp h).1)⟩
  have hok := hinv.ok t c _ hc h
  unfold Requests.ThreadOk at hok
  split at hok
  · cases hok.1
  · rename_i rs hrs
    obtain ⟨⟨id, l, body, rfl⟩, rfl, -⟩ := hok
    cases l with
    | none => simp [Call.runs, Requests.newRunContext] at hrs
    | some p =>
      obtain ⟨g, slow⟩ := p
      simp [Call.runs, Requests.newRunContext] at hrs
      subst hrs
      exact ⟨id, slow, body, hc⟩

/-- Once a `/run/new/` request has received its whole body, its file holds it. -/
theorem file_body {files : Guid → Option Str} {acts : List Requests.Act} {t id : Nat} {g : Guid} {slow : Bool}
    {body : Str} {th : Requests.Thread}
    (hc : (Requests.run files acts).calls[t]? = some (.new id (some (g, slow)) body))
    (ht : (Requests.run files acts).threads[t]? = some th) (hcr : Requests.Creator th)
    (hnc : ∀ r b, th ≠ .copying r b) (hnf : Requests.Act.step t .fail ∉ acts) :
    (Requests.run files acts).files g = some body := by
  induction acts using List.reverseRecOn generalizing th with
  | nil => simp [Requests.run] at hc
  | append_singleton acts a ih =>
    have hinv := Requests.inv_run files acts
    have hnf' : Requests.Act.step t .fail ∉ acts := fun h => hnf (List.mem_append_left _ h)
    cases a with
    | call c =>
      rw [Requests.run_append] at hc ht ⊢
      simp only [Requests.step] at hc ht ⊢
      rcases Nat.lt_or_ge t (Requests.run files acts).calls.length with hl | hl
      · rw [List.getElem?_append_left hl] at hc
        rw [List.getElem?_append_left (by rw [← hinv.len]; exact hl)] at ht
        exact ih hc ht hcr hnc hnf'
      · rw [List.getElem?_append_right hl] at hc
        rw [List.getElem?_append_right (by rw [← hinv.len]; exact hl)] at ht
        have h0 : t - (Requests.run files acts).calls.length = 0 := by
          have := (List.getElem?_eq_some_iff.mp hc).1
          simp only [List.length_singleton] at this
          omega
        rw [h0] at hc
        rw [← hinv.len, h0] at ht
        simp only [List.getElem?_cons_zero, Option.some.injEq] at hc ht
        subst hc
        simp [Call.start, Requests.newRunContext] at ht
        subst ht
        exact hcr.elim
    | step t' ch =>
      rw [run_calls_step] at hc
      rw [Requests.run_append] at ht ⊢
      simp only [Requests.step] at ht ⊢
      split at ht
      · exact ih hc ht hcr hnc hnf'
      · rename_i th' hth'
        have hlt := (List.getElem?_eq_some_iff.mp hth').1
        by_cases htt : t' = t
        · subst htt
          cases th' with
          | opening r b =>
            cases ch <;> simp only [Requests.threadStep] at ht ⊢
            case fail => simp only [List.getElem?_set_self hlt, Option.some.injEq] at ht; subst ht; cases hcr
            all_goals
              cases hr : (Requests.run files acts).files r.guid with
              | some x =>
                simp only [hr, List.getElem?_set_self hlt, Option.some.injEq] at ht
                subst ht; cases hcr
              | none =>
                simp only [hr, List.getElem?_set_self hlt, Option.some.injEq] at ht
                exact absurd ht.symm (hnc _ _)
          | copying r b =>
            have hfo := hinv.file t' id g slow body _ hc hth'
            simp only [Requests.FileOk] at hfo
            obtain ⟨hg, st, hst, hbody⟩ := hfo
            cases ch with
            | fail => exact absurd (List.mem_append_right _ (List.mem_singleton.mpr rfl)) hnf
            | part n =>
              simp only [Requests.threadStep, List.getElem?_set_self hlt, Option.some.injEq] at ht
              exact absurd ht.symm (hnc _ _)
            | go =>
              simp only [Requests.threadStep]
              rw [hg, hst]
              simp [Requests.setFile, hbody]
          | injecting p rest =>
            have hIH := ih hc hth' trivial (by simp) hnf'
            cases rest with
            | nil => simp only [Requests.threadStep]; rw [Requests.finish_files]; exact hIH
            | cons r rest =>
              cases ch <;> simp only [Requests.threadStep]
              case fail => rw [Requests.finish_files]; exact hIH
              all_goals (split; rw [Requests.finish_files]; exact hIH; exact hIH)
          | adding p r rest => exact ih hc hth' trivial (by simp) hnf'
          | checking ok =>
            have hok := hinv.ok _ _ _ hc hth'
            simp only [Requests.ThreadOk, Call.runs, Requests.newRunContext, Option.map_some] at hok
            cases hok.1
          | replied st =>
            simp only [Requests.threadStep] at ht ⊢
            exact ih hc ht hcr hnc hnf'
        · rw [threads_other _ htt] at ht
          have hIH := ih hc ht hcr hnc hnf'
          rcases Requests.step_files (Requests.run files acts) t' ch th' g with h1 | ⟨r, b, -, -, h1⟩ | ⟨r, b, rfl, h1, -⟩
          · rw [h1]; exact hIH
          · rw [hIH] at h1; cases h1
          · exfalso
            obtain ⟨id', slow', body', hc'⟩ := copying_call hth'
            rw [h1] at hc'
            exact htt (hinv.uniq t' t _ _ g _ _ _ _ _ _ hc' hth' trivial hc ht hcr)

/-- A submission whose file holds `x` and is not being written. -/
structure Settled (g : Guid) (x : Str) (s : Requests.State) : Prop where
  file : s.files g = some x
  idle : ∀ r b, .copying r b ∈ s.threads → r.guid ≠ g

theorem Settled.step {g : Guid} {x : Str} {s : Requests.State} (h : Settled g x s) (a : Requests.Act) :
    Settled g x (Requests.step s a) := by
  cases a with
  | call c =>
    refine ⟨h.file, ?_⟩
    intro r b hm
    simp only [Requests.step] at hm
    rcases List.mem_append.mp hm with hm | hm
    · exact h.idle r b hm
    · have := (List.mem_singleton.mp hm).symm
      cases c <;> simp only [Call.start] at this <;> (try split at this) <;> cases this
  | step t ch =>
    simp only [Requests.step]
    split
    · exact h
    rename_i th ht
    have hth := List.mem_of_getElem? ht
    have keep : ∀ y, (∀ r b, y = .copying r b → r.guid ≠ g) → ∀ r b, Requests.Thread.copying r b ∈ s.threads.set t y →
        r.guid ≠ g := by
      intro y hy r b hm
      rcases mem_set_cases hm with hm | hm
      · exact h.idle r b hm
      · exact hy r b hm.symm
    cases th with
    | opening q b =>
      cases ch <;> simp only [Requests.threadStep]
      case fail => exact ⟨h.file, keep _ (by simp)⟩
      all_goals
        cases hq : s.files q.guid with
        | some y => exact ⟨h.file, keep _ (by simp)⟩
        | none =>
          have hne : q.guid ≠ g := by rintro rfl; rw [h.file] at hq; cases hq
          refine ⟨?_, keep _ (by simpa using hne)⟩
          simp only [Requests.setFile]
          rw [if_neg (Ne.symm hne)]
          exact h.file
    | copying q b =>
      have hne := h.idle q b hth
      cases ch <;> simp only [Requests.threadStep]
      · refine ⟨?_, keep _ (by simp)⟩
        simp only [Requests.setFile]
        rw [if_neg (Ne.symm hne)]
        exact h.file
      · refine ⟨?_, keep _ (by simpa using hne)⟩
        simp only [Requests.setFile]
        rw [if_neg (Ne.symm hne)]
        exact h.file
      · exact ⟨h.file, keep _ (by simp)⟩
    | injecting p rest =>
      have hfin : ∀ ok, Settled g x (Requests.finish s t ok) := by
        intro ok
        obtain ⟨y, hy, hy2⟩ := Requests.finish_threads s t ok
        refine ⟨by rw [Requests.finish_files]; exact h.file, ?_⟩
        rw [hy]
        exact keep _ (by rcases hy2 with rfl | rfl <;> simp)
      cases rest with
      | nil => exact hfin true
      | cons q rest =>
        cases ch <;> simp only [Requests.threadStep]
        case fail => exact hfin false
        all_goals (split; exact hfin false; exact ⟨h.file, keep _ (by simp)⟩)
    | adding p q rest => exact ⟨h.file, keep _ (by simp)⟩
    | checking ok => exact ⟨h.file, keep _ (by simp)⟩
    | replied st => exact h

/-- From a start with the file in place, everything added for the submission carries it. -/
theorem sources_run {files : Guid → Option Str} {g : Guid} {x : Str} (h : files g = some x)
    (acts : List Requests.Act) : Settled g x (Requests.run files acts) ∧
      (∀ p r rest, .adding p r rest ∈ (Requests.run files acts).threads → r.id ≠ 0 → r.guid = g → r.source = x) ∧
      ∀ e ∈ (Requests.run files acts).added, e.2.id ≠ 0 → e.2.guid = g → e.2.source = x := by
  induction acts using List.reverseRecOn with
  | nil => exact ⟨⟨h, by simp [Requests.run]⟩, by simp [Requests.run], by simp [Requests.run]⟩
  | append_singleton acts a ih =>
    obtain ⟨h1, h2, h3⟩ := ih
    rw [Requests.run_append]
    refine ⟨h1.step a, ?_⟩
    cases a with
    | call c =>
      simp only [Requests.step]
      refine ⟨?_, h3⟩
      intro p r rest hm h0
      rcases List.mem_append.mp hm with hm | hm
      · exact h2 p r rest hm h0
      · exact absurd (start_not_adding (List.mem_singleton.mp hm).symm) h0
    | step t ch =>
      simp only [Requests.step]
      split
      · exact ⟨h2, h3⟩
      rename_i th ht
      have hth := List.mem_of_getElem? ht
      have keep : ∀ y, (∀ p r rest, y = .adding p r rest → r.guid = g → r.source = x) → ∀ p r rest,
          Requests.Thread.adding p r rest ∈ (Requests.run files acts).threads.set t y → r.id ≠ 0 → r.guid = g →
          r.source = x := by
        intro y hy p r rest hm h0
        rcases mem_set_cases hm with hm | hm
        · exact h2 p r rest hm h0
        · exact hy p r rest hm.symm
      cases th with
      | opening q b =>
        cases ch <;> simp only [Requests.threadStep] <;> (try split) <;> exact ⟨keep _ (by simp), h3⟩
      | copying q b => cases ch <;> simp only [Requests.threadStep] <;> exact ⟨keep _ (by simp), h3⟩
      | injecting p rest =>
        have hfin : ∀ ok, (∀ p r rest, .adding p r rest ∈ (Requests.finish (Requests.run files acts) t ok).threads →
              r.id ≠ 0 → r.guid = g → r.source = x) ∧
            ∀ e ∈ (Requests.finish (Requests.run files acts) t ok).added, e.2.id ≠ 0 → e.2.guid = g → e.2.source = x := by
          intro ok
          obtain ⟨y, hy, hy2⟩ := Requests.finish_threads (Requests.run files acts) t ok
          rw [hy, Requests.finish_added]
          exact ⟨keep _ (by rcases hy2 with rfl | rfl <;> simp), h3⟩
        cases rest with
        | nil => exact hfin true
        | cons q rest =>
          cases ch <;> simp only [Requests.threadStep]
          case fail => exact hfin false
          all_goals
            cases hq : (Requests.run files acts).files q.guid with
            | none => exact hfin false
            | some y =>
              refine ⟨keep _ ?_, h3⟩
              intro p' r' rest' he hg
              cases he
              simp only at hg ⊢
              rw [hg, h1.file] at hq
              cases hq; rfl
      | adding p q rest =>
        simp only [Requests.threadStep]
        refine ⟨keep _ (by simp), ?_⟩
        intro e he h0 hg
        simp only [List.mem_append, List.mem_singleton] at he
        rcases he with he | rfl
        · exact h3 e he h0 hg
        · exact h2 p q rest hth h0 hg
      | checking ok => exact ⟨keep _ (by simp), h3⟩
      | replied st => exact ⟨h2, h3⟩

/-- Zero or more things happen. -/
inductive Later : World → World → Prop
  | refl (w) : Later w w
  | next {w w' w''} : Later w w' → Next w' w'' → Later w w''

theorem Later.settled {w w' : World} (h : Later w w') {g : Guid} {x : Str} (hs : Settled g x w.req) :
    Settled g x w'.req := by
  induction h with
  | refl => exact hs
  | next _ hn ih =>
    cases hn with
    | insert => exact ih
    | request c hc => simp only [World.req, Requests.run_append] at ih ⊢; exact ih.step _
    | step t ch => simp only [World.req, Requests.run_append] at ih ⊢; exact ih.step _
    | finish => exact ih
    | restart ids h1 h2 => exact ⟨ih.file, by simp [World.req, Requests.run]⟩
    | recover id rest ok h1 h2 => simp only [World.req, Requests.run_append] at ih ⊢; exact ih.step _

/-- C100, the source: once a request for a submission was answered with success and nothing failed while serving it,
its file is its body for ever, whatever happens and however often the grader is killed; every process started later
grades the submission with exactly that. Missing: submissions whose request was cut short. -/
theorem C100_whole_source_partial {w w1 w2 w3 : World} {t id : Nat} {g : Guid} {slow : Bool} {body : Str}
    (hc : w.req.calls[t]? = some (.new id (some (g, slow)) body)) (ht : w.req.threads[t]? = some (.replied 200))
    (hnf : .step t .fail ∉ w.acts) (h1 : Later w w1) {ids : List Nat} (hn : ids.Nodup)
    (hids : ∀ id, id ∈ ids ↔ ∃ i, w1.rows id = some i ∧ i.ready = false)
    (h2 : w2 = { w1 with disk := w1.req.files, acts := [], recovering := ids, loop := none
                         earlier := w1.earlier ++ w1.queued })
    (h3 : Later w2 w3) :
    Next w1 w2 ∧ w3.req.files g = some body ∧
      ∀ e ∈ w3.req.added, e.2.id ≠ 0 → e.2.guid = g → e.2.source = body := by
  have hset : Settled g body w.req := by
    refine ⟨file_body hc ht rfl (by simp) hnf, ?_⟩
    rintro r b hm rfl
    obtain ⟨u, hu⟩ := List.mem_iff_getElem?.mp hm
    obtain ⟨id', slow', body', hc'⟩ := copying_call hu
    have := (Requests.inv_run w.disk w.acts).uniq u t _ _ _ _ _ _ _ _ _ hc' hu trivial hc ht rfl
    subst this
    have ht' := ht
    simp only [World.req] at hu ht'
    rw [ht'] at hu
    cases hu
  have hset1 := h1.settled hset
  have hdisk : w3.disk g = some body ∧ Settled g body w3.req := by
    subst h2
    induction h3 with
    | refl => exact ⟨hset1.file, hset1.file, by simp [World.req, Requests.run]⟩
    | @next w' w'' hl hn' ih =>
      obtain ⟨i1, i2⟩ := ih
      have hl' := Later.settled (.next (.refl w') hn') i2
      refine ⟨?_, hl'⟩
      cases hn' with
      | insert => exact i1
      | request => exact i1
      | step => exact i1
      | finish => exact i1
      | restart => exact i2.file
      | recover => exact i1
  refine ⟨by rw [h2]; exact .restart w1 ids hn hids, hdisk.2.file, ?_⟩
  exact (sources_run hdisk.1 w3.acts).2.2

/-! ### What is not true -/

theorem Reach.steps {w : World} (h : Reach w) (l : List (Nat × Choice)) :
    Reach { w with acts := w.acts ++ l.map fun p => .step p.1 p.2 } := by
  induction l using List.reverseRecOn with
  | nil => simpa using h
  | append_singleton l p ih => simpa using ih.next (.step _ p.1 p.2)

/-- One submission in the database. -/
def oneRow : Nat → Option Info := Function.update (fun _ => none) 7 (some ⟨70, false, false⟩)

theorem reach_oneRow : Reach { rows := oneRow } :=
  Reach.init.next (.insert {} 7 70 false (by decide) rfl)

theorem pending_oneRow (id : Nat) : id ∈ [7] ↔ ∃ i, oneRow id = some i ∧ i.ready = false := by
  constructor
  · intro h
    rw [List.mem_singleton.mp h]
    exact ⟨⟨70, false, false⟩, by simp [oneRow], rfl⟩
  · rintro ⟨i, h, -⟩
    by_contra hne
    simp only [List.mem_singleton] at hne
    rw [oneRow, Function.update_of_ne hne] at h
    cases h

/-- C100 fails: the row of a submission is inserted, the grader starts and lists the pending runs, the front end's request
for the submission arrives and is served, and then the loop gets to it: the run is in the queue twice, though it was
submitted once, nothing failed and nobody asked for a rejudge. -/
theorem C100_twice : ∃ w, Reach w ∧ w.queued = [7, 7] ∧ (∀ t, .step t .fail ∉ w.acts) ∧
    w.req.calls = [.new 7 (some (70, false)) ['a'], .pending 7 (some (70, false))] := by
  have h1 : Reach { rows := oneRow, recovering := [7] } := by
    simpa [World.req, World.queued, Requests.run] using
      reach_oneRow.next (.restart _ [7] (by decide) pending_oneRow)
  have h2 := h1.next (.request _ (.new 7 (some (70, false)) ['a']) ⟨true, by simp [World.lookup, oneRow]⟩)
  have h3 := h2.steps [(0, .go), (0, .go), (0, .go), (0, .go), (0, .go)]
  have h4 := h3.next (.recover _ 7 [] true rfl trivial)
  have h5 := h4.steps [(1, .go), (1, .go), (1, .go)]
  refine ⟨_, h5, ?_, ?_, ?_⟩
  · simp only [World.queued, World.req, World.lookup, oneRow]; decide
  · intro t; simp
  · simp only [World.req, World.lookup, oneRow]; decide

/-- C100 fails: the grader is killed while a submission is arriving. The next one finds what had arrived on disk and
grades that; the front end, which got no answer, cannot send the submission again. -/
theorem C100_truncated : ∃ w, Reach w ∧ (∀ t, .step t .fail ∉ w.acts) ∧
    w.req.added = [(0, { id := 7, guid := 70, priority := .normal, source := ['a'] })] ∧
    w.req.calls = [.pending 7 (some (70, false)), .new 7 (some (70, false)) ['a', 'b']] ∧
    w.req.threads = [.replied 200, .replied 409] := by
  have h1 := reach_oneRow.next (.request _ (.new 7 (some (70, false)) ['a', 'b'])
    ⟨true, by simp [World.lookup, oneRow]⟩)
  have h2 := h1.steps [(0, .go), (0, .part 1)]
  have h3 := h2.next (.restart _ [7] (by decide) pending_oneRow)
  have h4 := h3.next (.recover _ 7 [] true rfl trivial)
  have h5 := h4.steps [(0, .go), (0, .go), (0, .go)]
  have h6 := h5.next (.request _ (.new 7 (some (70, false)) ['a', 'b']) ⟨true, by simp [World.lookup, oneRow]⟩)
  have h7 := h6.steps [(1, .go)]
  refine ⟨_, h7, ?_, ?_, ?_, ?_⟩
  · intro t; simp
  · simp only [World.req, World.lookup, oneRow]; decide
  · simp only [World.req, World.lookup, oneRow]; decide
  · simp only [World.req, World.lookup, oneRow]; decide

/-- A run in the queue when the grader is killed is in the queue again after the loop: the hypotheses of
`C99_all_recovered` are met. -/
example : ∃ w, Reach w ∧ w.recovering = [] ∧ w.earlier = [7] ∧ w.queued = [7] ∧
    w.req.calls = [.pending 7 (some (70, false))] ∧ w.req.threads = [.replied 200] ∧
    (w.rows 7).map (·.ready) = some false := by
  have h1 := reach_oneRow.next (.request _ (.new 7 (some (70, false)) ['a', 'b'])
    ⟨true, by simp [World.lookup, oneRow]⟩)
  have h2 := h1.steps [(0, .go), (0, .go), (0, .go), (0, .go), (0, .go)]
  have h3 := h2.next (.restart _ [7] (by decide) pending_oneRow)
  have h4 := h3.next (.recover _ 7 [] true rfl trivial)
  have h5 := h4.steps [(0, .go), (0, .go), (0, .go)]
  refine ⟨_, h5, rfl, ?_, ?_, ?_, ?_, ?_⟩
  · simp only [World.queued, World.req]; decide
  · simp only [World.queued, World.req, World.lookup, oneRow]; decide
  · simp only [World.req, World.lookup, oneRow]; decide
  · simp only [World.req, World.lookup, oneRow]; decide
  · simp [oneRow]

end Quark.Publish
