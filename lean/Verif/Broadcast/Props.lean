import Verif.Broadcast.Model

namespace Quark.Broadcast

variable {σ μ υ : Type} [DecidableEq σ] [DecidableEq υ]

/-! ### Specification

What a subscriber is owed is read off the history of what the broadcaster processed. -/

/-- One event, for the subscriber `s`: whether it is registered, and the messages it is owed so far. -/
def owe (w : World σ μ υ) (s : σ) (x : Bool × List μ) : Event σ μ υ → Bool × List μ
  | .joined t => (x.1 || t = s, x.2)
  | .message m => (x.1, if x.1 && w.wants s m then x.2 ++ [m] else x.2)
  | .deauth u => (x.1 && w.user s ≠ u, x.2)
  | .left t => (x.1 && t ≠ s, x.2)
  | .overflow t => (x.1 && t ≠ s, x.2)

def account (w : World σ μ υ) (s : σ) (log : List (Event σ μ υ)) : Bool × List μ := log.foldl (owe w s) (false, [])

/-- After these events `s` has joined and not been removed since. -/
def Active (w : World σ μ υ) (s : σ) (log : List (Event σ μ υ)) : Prop := (account w s log).1 = true

/-- The messages that `s` wants among those processed between its subscription and its removal, in order. -/
def owed (w : World σ μ υ) (s : σ) (log : List (Event σ μ υ)) : List μ := (account w s log).2

def messages : List (Event σ μ υ) → List μ
  | [] => []
  | .message m :: es => m :: messages es
  | _ :: es => messages es

theorem account_append (w : World σ μ υ) (s : σ) (log : List (Event σ μ υ)) (e : Event σ μ υ) :
    account w s (log ++ [e]) = owe w s (account w s log) e := by
  simp [account]

theorem messages_append (a b : List (Event σ μ υ)) : messages (a ++ b) = messages a ++ messages b := by
  induction a with
  | nil => rfl
  | cons e es ih => cases e <;> simp [messages, ih]

/-! ### The invariant -/

/-- The subscribers that the loop has still to visit. -/
def todo : Pc σ μ υ → List σ
  | .idle => []
  | .dispatch _ l => l
  | .deauthing _ l => l

/-- A message that is being dispatched and that `s` has still to get. -/
def pending (w : World σ μ υ) (s : σ) : Pc σ μ υ → List μ
  | .dispatch m l => if s ∈ l ∧ w.wants s m = true then [m] else []
  | _ => []

/-- `s` is still to be removed by the deauthentication under way. -/
def doomed (w : World σ μ υ) (s : σ) : Pc σ μ υ → Prop
  | .deauthing u l => s ∈ l ∧ w.user s = u
  | _ => False

/-- Nothing has happened to `s` yet. -/
def Untouched (w : World σ μ υ) (st : State σ μ υ) (s : σ) : Prop :=
  s ∉ st.registered ∧ st.closed s = false ∧ st.buffer s = [] ∧ st.taken s = [] ∧ account w s st.log = (false, [])

/-- `s` was disconnected for overflow. -/
def Spilled (w : World σ μ υ) (s : σ) (log : List (Event σ μ υ)) : Prop :=
  ∃ a b, log = a ++ .overflow s :: b ∧ (account w s a).1 = true

theorem Spilled.append {w : World σ μ υ} {s : σ} {log : List (Event σ μ υ)} (h : Spilled w s log)
    (l : List (Event σ μ υ)) : Spilled w s (log ++ l) := by
  obtain ⟨a, b, rfl, h⟩ := h
  exact ⟨a, b ++ l, by simp, h⟩

structure One (w : World σ μ υ) (st : State σ μ υ) (s : σ) : Prop where
  fresh : st.phase s = .fresh → s ∉ st.subscribeQ ∧ Untouched w st s
  waiting : s ∈ st.subscribeQ → Untouched w st s
  isOpen : s ∈ st.registered → st.closed s = false
  shut : s ∉ st.registered → st.closed s = true ∨ Untouched w st s
  active : s ∈ st.registered ↔ (account w s st.log).1 = true ∨ doomed w s st.pc
  stream : ∃ tail, (account w s st.log).2 = st.taken s ++ st.buffer s ++ tail ∧
    (s ∈ st.registered → tail = pending w s st.pc) ∧
    (s ∉ st.registered → tail = [] ∨ (Spilled w s st.log ∧ ∃ m, tail = [m]))
  doom : doomed w s st.pc → (account w s st.log).1 = false
  room : (st.buffer s).length ≤ w.channelLength

structure Inv (w : World σ μ υ) (st : State σ μ υ) : Prop where
  nodup : st.registered.Nodup
  nodupQ : st.subscribeQ.Nodup
  nodupTodo : (todo st.pc).Nodup
  subTodo : ∀ s ∈ todo st.pc, s ∈ st.registered
  ws : st.wsGauge = (st.registered.countP (fun s => w.ws s) : Nat)
  sse : st.sseGauge = (st.registered.countP (fun s => !w.ws s) : Nat)
  calm : st.panicked = false
  order : messages st.log ++ st.messageQ = st.accepted
  one : ∀ s, One w st s

theorem inv_init (w : World σ μ υ) : Inv w ({} : State σ μ υ) where
  nodup := by simp
  nodupQ := by simp
  nodupTodo := by simp [todo]
  subTodo := by simp [todo]
  ws := by simp
  sse := by simp
  calm := rfl
  order := rfl
  one s := by
    constructor
    · intro _; simp [Untouched, account]
    · simp
    · simp
    · intro _; right; simp [Untouched, account]
    · simp [account, doomed]
    · exact ⟨[], by simp [account], by simp, by simp⟩
    · simp [doomed]
    · simp

theorem countP_erase {p : σ → Bool} {l : List σ} {s : σ} (h : s ∈ l) :
    l.countP p = (l.erase s).countP p + (if p s then 1 else 0) := by
  have := (List.perm_cons_erase h).countP_eq p
  rw [this, List.countP_cons]

/-- Removing a registered subscriber whose removal is accounted for in the new log `log'` and program counter. -/
theorem Inv.remove {w : World σ μ υ} {st : State σ μ υ} {s : σ} {log' : List (Event σ μ υ)} {pc' : Pc σ μ υ}
    {q' : List σ} {st0 : State σ μ υ} (hI : Inv w st) (hs : s ∈ st.registered)
    (h0 : st0 = { st with log := log', pc := pc', unsubscribeQ := q' })
    (hm : messages log' = messages st.log)
    (hmem : ∀ t, Spilled w t st.log → Spilled w t log')
    (hacc : ∀ t, (account w t log').2 = (account w t st.log).2)
    (hact : ∀ t, t ≠ s → (account w t log').1 = (account w t st.log).1)
    (hgone : (account w s log').1 = false)
    (hdoom : ∀ t, t ≠ s → (doomed w t pc' ↔ doomed w t st.pc)) (hdoom' : ¬ doomed w s pc')
    (hpend : ∀ t, t ≠ s → pending w t pc' = pending w t st.pc)
    (hlast : pending w s st.pc = [] ∨ (Spilled w s log' ∧ ∃ m, pending w s st.pc = [m]))
    (htodo : (todo pc').Nodup ∧ ∀ t ∈ todo pc', t ∈ st.registered ∧ t ≠ s) :
    Inv w (Broadcast.remove w st0 s) := by
  have hopen := (hI.one s).isOpen hs
  subst h0
  unfold Broadcast.remove
  simp only [hopen, Bool.false_eq_true, if_false]
  have hmemE : ∀ t, t ≠ s → (t ∈ st.registered.erase s ↔ t ∈ st.registered) := fun t ht =>
    List.mem_erase_of_ne ht
  have hself : s ∉ st.registered.erase s := by
    rw [hI.nodup.mem_erase_iff]; simp
  constructor
  · exact hI.nodup.erase s
  · exact hI.nodupQ
  · exact htodo.1
  · intro t ht
    obtain ⟨h1, h2⟩ := htodo.2 t ht
    exact (hmemE t h2).2 h1
  · have := countP_erase (p := fun s => w.ws s) hs
    have h2 := hI.ws
    dsimp only at this h2 ⊢
    split <;> rename_i hw <;> simp only [hw] at this <;> simp at this <;> omega
  · have := countP_erase (p := fun s => !w.ws s) hs
    have h2 := hI.sse
    dsimp only at this h2 ⊢
    split <;> rename_i hw <;> simp only [hw] at this <;> simp at this <;> omega
  · exact hI.calm
  · dsimp only; rw [hm]; exact hI.order
  · intro t
    have hO := hI.one t
    by_cases hts : t = s
    · subst hts
      obtain ⟨tail, h1, h2, h3⟩ := hO.stream
      have h2 := h2 hs
      constructor
      · intro hf; exact absurd hs (hO.fresh hf).2.1
      · intro hq; exact absurd hs (hO.waiting hq).1
      · intro h; exact absurd h hself
      · intro _; left; simp [upd]
      · simp only [hself, hgone, false_iff, not_or]
        exact ⟨by simp, hdoom'⟩
      · refine ⟨tail, ?_, fun h => absurd h hself, fun _ => ?_⟩
        · dsimp only; rw [hacc]; exact h1
        · rw [h2]; exact hlast
      · exact fun h => absurd h hdoom'
      · exact hO.room
    · have hU : Untouched w st t → Untouched w
          { st with log := log', pc := pc', unsubscribeQ := q', registered := st.registered.erase s,
                    closed := upd st.closed s true,
                    wsGauge := if w.ws s then st.wsGauge - 1 else st.wsGauge,
                    sseGauge := if w.ws s then st.sseGauge else st.sseGauge - 1 } t := by
        rintro ⟨h1, h2, h3, h4, h5⟩
        refine ⟨fun h => h1 ((hmemE t hts).1 h), by simp [upd, hts, h2], h3, h4, ?_⟩
        exact Prod.ext (by dsimp only; rw [hact t hts, h5]) (by dsimp only; rw [hacc, h5])
      obtain ⟨tail, h1, h2, h3⟩ := hO.stream
      constructor
      · intro hf; exact ⟨(hO.fresh hf).1, hU (hO.fresh hf).2⟩
      · intro hq; exact hU (hO.waiting hq)
      · intro h; simp only [upd, if_neg hts]; exact hO.isOpen ((hmemE t hts).1 h)
      · intro h
        rcases hO.shut (fun h' => h ((hmemE t hts).2 h')) with h' | h'
        · left; simp only [upd, if_neg hts]; exact h'
        · right; exact hU h'
      · dsimp only; rw [hmemE t hts, hO.active, hact t hts, hdoom t hts]
      · refine ⟨tail, ?_, fun h => ?_, fun h => ?_⟩
        · dsimp only; rw [hacc]; exact h1
        · dsimp only; rw [hpend t hts]; exact h2 ((hmemE t hts).1 h)
        · rcases h3 (fun h' => h ((hmemE t hts).2 h')) with h | ⟨h, hx⟩
          · exact Or.inl h
          · exact Or.inr ⟨hmem t h, hx⟩
      · intro h; dsimp only; rw [hact t hts]; exact hO.doom ((hdoom t hts).1 h)
      · exact hO.room

/-- Nothing that concerns subscriber `t` changed. -/
theorem One.same {w : World σ μ υ} {st st' : State σ μ υ} {t : σ} (h : One w st t)
    (hq : t ∈ st'.subscribeQ ↔ t ∈ st.subscribeQ) (hr : t ∈ st'.registered ↔ t ∈ st.registered)
    (hb : st'.buffer t = st.buffer t) (hc : st'.closed t = st.closed t) (ht : st'.taken t = st.taken t)
    (hp : st'.phase t = .fresh → st.phase t = .fresh) (ha : account w t st'.log = account w t st.log)
    (hd : doomed w t st'.pc ↔ doomed w t st.pc) (hpe : t ∈ st.registered → pending w t st'.pc = pending w t st.pc)
    (ho : Spilled w t st.log → Spilled w t st'.log) : One w st' t := by
  have hU : Untouched w st t → Untouched w st' t := by
    rintro ⟨h1, h2, h3, h4, h5⟩
    exact ⟨fun h => h1 (hr.1 h), hc.trans h2, hb.trans h3, ht.trans h4, ha.trans h5⟩
  obtain ⟨tail, h1, h2, h3⟩ := h.stream
  constructor
  · intro hf; exact ⟨fun h' => (h.fresh (hp hf)).1 (hq.1 h'), hU (h.fresh (hp hf)).2⟩
  · intro h'; exact hU (h.waiting (hq.1 h'))
  · intro h'; rw [hc]; exact h.isOpen (hr.1 h')
  · intro h'
    rcases h.shut (fun x => h' (hr.2 x)) with x | x
    · exact Or.inl (hc.trans x)
    · exact Or.inr (hU x)
  · rw [hr, ha, hd]; exact h.active
  · refine ⟨tail, by rw [ha, hb, ht]; exact h1, fun x => ?_, fun x => ?_⟩
    · rw [hpe (hr.1 x)]; exact h2 (hr.1 x)
    · rcases h3 (fun y => x (hr.2 y)) with y | ⟨y, z⟩
      · exact Or.inl y
      · exact Or.inr ⟨ho y, z⟩
  · intro x; rw [ha]; exact h.doom (hd.1 x)
  · rw [hb]; exact h.room

theorem inv_step {w : World σ μ υ} {st st' : State σ μ υ} {a : Act σ μ υ} (hI : Inv w st)
    (hs : step w st a = some st') : Inv w st' := by
  unfold step at hs
  split at hs
  · rename_i hx; rw [hI.calm] at hx; cases hx
  cases a with
  | connect s =>
    dsimp only at hs
    split at hs
    · cases hs
    rename_i hph
    have hph : st.phase s = .fresh := by simpa using hph
    have hfr := (hI.one s).fresh hph
    split at hs
    · cases hs
      refine ⟨hI.nodup, ?_, hI.nodupTodo, hI.subTodo, hI.ws, hI.sse, hI.calm, hI.order, fun t => ?_⟩
      · dsimp only
        rw [List.nodup_append]
        refine ⟨hI.nodupQ, by simp, ?_⟩
        intro a ha b hb hab
        rw [List.mem_singleton] at hb
        subst hb; subst hab
        exact hfr.1 ha
      · by_cases hts : t = s
        · subst hts
          have hO := hI.one t
          obtain ⟨tail, h1, h2, h3⟩ := hO.stream
          exact ⟨by simp [upd], fun _ => hfr.2, hO.isOpen, hO.shut, hO.active, ⟨tail, h1, h2, h3⟩, hO.doom, hO.room⟩
        · exact (hI.one t).same (by simp [hts]) Iff.rfl rfl rfl rfl (by simp [upd, hts]) rfl Iff.rfl (fun _ => rfl) id
    · cases hs
      refine ⟨hI.nodup, hI.nodupQ, hI.nodupTodo, hI.subTodo, hI.ws, hI.sse, hI.calm, hI.order, fun t => ?_⟩
      refine (hI.one t).same Iff.rfl Iff.rfl rfl rfl rfl ?_ rfl Iff.rfl (fun _ => rfl) id
      by_cases hts : t = s <;> simp [upd, hts]
  | disconnect s =>
    dsimp only at hs
    split at hs
    · cases hs
    split at hs
    · cases hs
      refine ⟨hI.nodup, hI.nodupQ, hI.nodupTodo, hI.subTodo, hI.ws, hI.sse, hI.calm, hI.order, fun t => ?_⟩
      refine (hI.one t).same Iff.rfl Iff.rfl rfl rfl rfl ?_ rfl Iff.rfl (fun _ => rfl) id
      by_cases hts : t = s <;> simp [upd, hts]
    · cases hs
      refine ⟨hI.nodup, hI.nodupQ, hI.nodupTodo, hI.subTodo, hI.ws, hI.sse, hI.calm, hI.order, fun t => ?_⟩
      refine (hI.one t).same Iff.rfl Iff.rfl rfl rfl rfl ?_ rfl Iff.rfl (fun _ => rfl) id
      by_cases hts : t = s <;> simp [upd, hts]
  | deauthenticate u =>
    dsimp only at hs
    split at hs
    · cases hs
      exact ⟨hI.nodup, hI.nodupQ, hI.nodupTodo, hI.subTodo, hI.ws, hI.sse, hI.calm, hI.order, fun t =>
        (hI.one t).same Iff.rfl Iff.rfl rfl rfl rfl id rfl Iff.rfl (fun _ => rfl) id⟩
    · cases hs
  | broadcast m =>
    dsimp only at hs
    split at hs
    · cases hs
      refine ⟨hI.nodup, hI.nodupQ, hI.nodupTodo, hI.subTodo, hI.ws, hI.sse, hI.calm, ?_, fun t =>
        (hI.one t).same Iff.rfl Iff.rfl rfl rfl rfl id rfl Iff.rfl (fun _ => rfl) id⟩
      dsimp only
      rw [← hI.order, List.append_assoc]
    · cases hs; exact hI
  | takeSubscribe =>
    dsimp only at hs
    split at hs
    · rename_i s q hpc hq
      cases hs
      have hw := (hI.one s).waiting (by rw [hq]; simp)
      have hnq : s ∉ q := by
        have := hI.nodupQ; rw [hq] at this; exact (List.nodup_cons.1 this).1
      have hmem : ∀ t, t ≠ s → (t ∈ (if s ∈ st.registered then st.registered else s :: st.registered) ↔
          t ∈ st.registered) := by
        intro t ht; rw [if_neg hw.1]; simp [ht]
      constructor
      · dsimp only; rw [if_neg hw.1]; exact List.nodup_cons.2 ⟨hw.1, hI.nodup⟩
      · have := hI.nodupQ; rw [hq] at this; exact (List.nodup_cons.1 this).2
      · exact hI.nodupTodo
      · dsimp only; rw [hpc]; simp [todo]
      · have := hI.ws
        dsimp only; rw [if_neg hw.1, List.countP_cons]
        split <;> simp <;> omega
      · have := hI.sse
        dsimp only; rw [if_neg hw.1, List.countP_cons]
        split <;> rename_i hx <;> simp [hx] <;> omega
      · exact hI.calm
      · dsimp only; rw [messages_append]; simp only [messages, List.append_nil]; exact hI.order
      · intro t
        by_cases hts : t = s
        · subst hts
          have hO := hI.one t
          have hreg : t ∈ (if t ∈ st.registered then st.registered else t :: st.registered) := by
            rw [if_neg hw.1]; simp
          constructor
          · intro hf; exact absurd (hq ▸ List.mem_cons_self) (hO.fresh hf).1
          · intro h; exact absurd h hnq
          · intro _; exact hw.2.1
          · intro h; exact absurd hreg h
          · simp [hreg, account_append, owe]
          · refine ⟨[], ?_, fun _ => ?_, fun h => absurd hreg h⟩
            · simp [account_append, owe, hw.2.2.2.2, hw.2.2.1, hw.2.2.2.1]
            · simp [hpc, pending]
          · dsimp only; rw [hpc]; simp [doomed]
          · exact hO.room
        · refine (hI.one t).same ?_ (hmem t hts) rfl rfl rfl id ?_ Iff.rfl (fun _ => rfl) ?_
          · rw [hq]; simp [hts]
          · rw [account_append]
            simp [owe, show ¬ s = t from fun h => hts h.symm]
          · intro h; exact h.append _
    · cases hs
  | takeUnsubscribe =>
    dsimp only at hs
    split at hs
    · rename_i s q hpc hq
      have hacc : ∀ t, t ≠ s → account w t (st.log ++ [.left s]) = account w t st.log := by
        intro t ht
        rw [account_append]
        simp [owe, show ¬ s = t from fun h => ht h.symm]
      split at hs
      · rename_i hr
        cases hs
        refine hI.remove (log' := st.log ++ [.left s]) (pc' := st.pc) (q' := q) hr rfl ?_ ?_ ?_ ?_ ?_ ?_ ?_ ?_ ?_ ?_
        · rw [messages_append]; simp [messages]
        · intro t h; exact h.append _
        · intro t; rw [account_append]; rfl
        · intro t ht; rw [hacc t ht]
        · rw [account_append]; simp [owe]
        · exact fun t _ => Iff.rfl
        · simp [hpc, doomed]
        · exact fun t _ => rfl
        · left; simp [hpc, pending]
        · rw [hpc]; simp [todo]
      · rename_i hr
        cases hs
        refine ⟨hI.nodup, hI.nodupQ, hI.nodupTodo, hI.subTodo, hI.ws, hI.sse, hI.calm, ?_, fun t => ?_⟩
        · dsimp only; rw [messages_append]; simp only [messages, List.append_nil]; exact hI.order
        · refine (hI.one t).same Iff.rfl Iff.rfl rfl rfl rfl id ?_ Iff.rfl (fun _ => rfl) (fun h => h.append _)
          by_cases hts : t = s
          · subst hts
            have h1 : (account w t st.log).1 = false := by
              by_contra h
              exact hr ((hI.one t).active.2 (Or.inl (by simpa using h)))
            rw [account_append]
            exact Prod.ext (by simp [owe, h1]) rfl
          · exact hacc t hts
    · cases hs
  | takeDeauth order =>
    dsimp only at hs
    split at hs
    · rename_i u q hpc hq
      split at hs
      · rename_i hperm
        cases hs
        refine ⟨hI.nodup, hI.nodupQ, hperm.nodup_iff.2 hI.nodup, fun t ht => hperm.mem_iff.1 ht, hI.ws, hI.sse,
          hI.calm, ?_, fun t => ?_⟩
        · dsimp only; rw [messages_append]; simp only [messages, List.append_nil]; exact hI.order
        · have hO := hI.one t
          obtain ⟨tail, h1, h2, h3⟩ := hO.stream
          have hact := hO.active
          simp only [hpc, doomed, or_false] at hact
          have hU : Untouched w st t → Untouched w { st with deauthQ := q, pc := .deauthing u order, log := st.log ++ [.deauth u] } t := by
            rintro ⟨h1, h2, h3, h4, h5⟩
            exact ⟨h1, h2, h3, h4, by dsimp only; rw [account_append, h5]; simp [owe]⟩
          constructor
          · intro hf; exact ⟨(hO.fresh hf).1, hU (hO.fresh hf).2⟩
          · intro h; exact hU (hO.waiting h)
          · exact hO.isOpen
          · intro h; exact (hO.shut h).imp id hU
          · dsimp only
            rw [account_append, hact]
            simp only [owe, doomed, hperm.mem_iff, hact]
            by_cases hu : w.user t = u <;> simp [hu]
          · refine ⟨tail, by rw [account_append]; exact h1, fun h => ?_, fun h => ?_⟩
            · rw [h2 h, hpc]; simp [pending]
            · rcases h3 h with h | ⟨h, h'⟩
              · exact Or.inl h
              · exact Or.inr ⟨h.append _, h'⟩
          · rintro ⟨-, hu⟩
            dsimp only
            rw [account_append]
            simp [owe, hu]
          · exact hO.room
      · cases hs
    · cases hs
  | takeMessage order =>
    dsimp only at hs
    split at hs
    · rename_i m q hpc hq
      split at hs
      · rename_i hperm
        cases hs
        refine ⟨hI.nodup, hI.nodupQ, hperm.nodup_iff.2 hI.nodup, fun t ht => hperm.mem_iff.1 ht, hI.ws, hI.sse,
          hI.calm, ?_, fun t => ?_⟩
        · have := hI.order
          rw [hq] at this
          dsimp only; rw [messages_append, ← this]; simp [messages]
        · have hO := hI.one t
          obtain ⟨tail, h1, h2, h3⟩ := hO.stream
          have hact := hO.active
          simp only [hpc, doomed, or_false] at hact
          have hU : Untouched w st t → Untouched w { st with messageQ := q, pc := .dispatch m order, log := st.log ++ [.message m] } t := by
            rintro ⟨h1, h2, h3, h4, h5⟩
            exact ⟨h1, h2, h3, h4, by dsimp only; rw [account_append, h5]; simp [owe]⟩
          constructor
          · intro hf; exact ⟨(hO.fresh hf).1, hU (hO.fresh hf).2⟩
          · intro h; exact hU (hO.waiting h)
          · exact hO.isOpen
          · intro h; exact (hO.shut h).imp id hU
          · dsimp only
            rw [account_append, hact]
            simp [owe, doomed]
          · by_cases hr : t ∈ st.registered
            · have ht := h2 hr
              rw [hpc] at ht
              simp only [pending] at ht
              subst ht
              refine ⟨_, ?_, fun _ => rfl, fun h => absurd hr h⟩
              dsimp only
              rw [account_append]
              simp only [owe, pending, hact.1 hr, hperm.mem_iff, hr, true_and, Bool.true_and, h1, List.append_nil]
              split <;> simp
            · have hf : (account w t st.log).1 = false := by
                by_contra h; exact hr (hact.2 (by simpa using h))
              refine ⟨tail, ?_, fun h => absurd h hr, fun h => ?_⟩
              · dsimp only
                rw [account_append]
                simp only [owe, hf, Bool.false_and, Bool.false_eq_true, if_false]
                exact h1
              · rcases h3 h with h | ⟨h, h'⟩
                · exact Or.inl h
                · exact Or.inr ⟨h.append _, h'⟩
          · simp [doomed]
          · exact hO.room
      · cases hs
    · cases hs
  | next =>
    dsimp only at hs
    split at hs
    · cases hs
    · rename_i m hpc
      cases hs
      refine ⟨hI.nodup, hI.nodupQ, by simp [todo], by simp [todo], hI.ws, hI.sse, hI.calm, hI.order, fun t => ?_⟩
      refine (hI.one t).same Iff.rfl Iff.rfl rfl rfl rfl id rfl ?_ ?_ id
      · simp [hpc, doomed]
      · simp [hpc, pending]
    · rename_i m s todo' hpc
      have hnd := hI.nodupTodo
      rw [hpc] at hnd
      simp only [todo, List.nodup_cons] at hnd
      have hsub := hI.subTodo
      rw [hpc] at hsub
      simp only [todo, List.mem_cons] at hsub
      have hreg := hsub s (Or.inl rfl)
      have hopen := (hI.one s).isOpen hreg
      split at hs
      · rename_i hwant
        rw [hopen] at hs
        simp only [Bool.false_eq_true, if_false] at hs
        split at hs
        · rename_i hlen
          cases hs
          refine ⟨hI.nodup, hI.nodupQ, hnd.2, fun t ht => hsub t (Or.inr ht), hI.ws, hI.sse, hI.calm, hI.order,
            fun t => ?_⟩
          have hO := hI.one t
          by_cases hts : t = s
          · subst hts
            obtain ⟨tail, h1, h2, h3⟩ := hO.stream
            have htail := h2 hreg
            rw [hpc] at htail
            simp only [pending, List.mem_cons, true_or, true_and, hwant, if_true] at htail
            subst htail
            constructor
            · intro hf; exact absurd hreg (hO.fresh hf).2.1
            · intro hq; exact absurd hreg (hO.waiting hq).1
            · exact hO.isOpen
            · intro h; exact absurd hreg h
            · have := hO.active
              rw [hpc] at this
              exact this
            · refine ⟨[], ?_, fun _ => ?_, fun h => absurd hreg h⟩
              · simp [upd, h1]
              · simp [pending, hnd.1]
            · simp [doomed]
            · simp only [upd, if_true, List.length_append, List.length_singleton]; omega
          · refine hO.same Iff.rfl Iff.rfl (by simp [upd, hts]) rfl rfl id rfl ?_ ?_ id
            · simp [hpc, doomed]
            · simp [hpc, pending, hts]
        · rename_i hlen
          cases hs
          refine hI.remove (log' := st.log ++ [.overflow s]) (pc' := .dispatch m todo') (q' := st.unsubscribeQ) hreg
            rfl ?_ ?_ ?_ ?_ ?_ ?_ ?_ ?_ ?_ ?_
          · rw [messages_append]; simp [messages]
          · intro t h; exact h.append _
          · intro t; rw [account_append]; rfl
          · intro t ht; rw [account_append]; simp [owe, show ¬ s = t from fun h => ht h.symm]
          · rw [account_append]; simp [owe]
          · intro t ht; simp [hpc, doomed]
          · simp [doomed]
          · intro t ht; simp [hpc, pending, ht]
          · right
            refine ⟨⟨st.log, [], rfl, ?_⟩, m, by simp [hpc, pending, hwant]⟩
            have := (hI.one s).active.1 hreg
            rw [hpc] at this
            simpa [doomed] using this
          · refine ⟨hnd.2, fun t ht => ⟨hsub t (Or.inr ht), ?_⟩⟩
            rintro rfl; exact hnd.1 ht
      · rename_i hwant
        cases hs
        refine ⟨hI.nodup, hI.nodupQ, hnd.2, fun t ht => hsub t (Or.inr ht), hI.ws, hI.sse, hI.calm, hI.order,
          fun t => ?_⟩
        refine (hI.one t).same Iff.rfl Iff.rfl rfl rfl rfl id rfl ?_ ?_ id
        · simp [hpc, doomed]
        · intro _
          by_cases hts : t = s
          · subst hts; simp [hpc, pending, hwant]
          · simp [hpc, pending, hts]
    · rename_i u hpc
      cases hs
      refine ⟨hI.nodup, hI.nodupQ, by simp [todo], by simp [todo], hI.ws, hI.sse, hI.calm, hI.order, fun t => ?_⟩
      refine (hI.one t).same Iff.rfl Iff.rfl rfl rfl rfl id rfl ?_ ?_ id
      · simp [hpc, doomed]
      · simp [hpc, pending]
    · rename_i u s todo' hpc
      have hnd := hI.nodupTodo
      rw [hpc] at hnd
      simp only [todo, List.nodup_cons] at hnd
      have hsub := hI.subTodo
      rw [hpc] at hsub
      simp only [todo, List.mem_cons] at hsub
      have hreg := hsub s (Or.inl rfl)
      split at hs
      · rename_i hu
        cases hs
        refine hI.remove (log' := st.log) (pc' := .deauthing u todo') (q' := st.unsubscribeQ) hreg rfl rfl
          (fun _ => id) (fun _ => rfl) (fun _ _ => rfl) ?_ ?_ ?_ ?_ ?_ ?_
        · exact (hI.one s).doom (by rw [hpc]; exact ⟨by simp, hu⟩)
        · intro t ht; simp [hpc, doomed, ht]
        · simp [doomed, hnd.1]
        · intro t ht; simp [hpc, pending]
        · left; simp [hpc, pending]
        · refine ⟨hnd.2, fun t ht => ⟨hsub t (Or.inr ht), ?_⟩⟩
          rintro rfl; exact hnd.1 ht
      · rename_i hu
        cases hs
        refine ⟨hI.nodup, hI.nodupQ, hnd.2, fun t ht => hsub t (Or.inr ht), hI.ws, hI.sse, hI.calm, hI.order,
          fun t => ?_⟩
        refine (hI.one t).same Iff.rfl Iff.rfl rfl rfl rfl id rfl ?_ ?_ id
        · by_cases hts : t = s
          · subst hts; simp [hpc, doomed, hu]
          · simp [hpc, doomed, hts]
        · simp [hpc, pending]
  | take s =>
    dsimp only at hs
    split at hs
    · cases hs
    split at hs
    · cases hs
    rename_i m ms hb
    cases hs
    refine ⟨hI.nodup, hI.nodupQ, hI.nodupTodo, hI.subTodo, hI.ws, hI.sse, hI.calm, hI.order, fun t => ?_⟩
    have hO := hI.one t
    by_cases hts : t = s
    · subst hts
      have hnu : ¬ Untouched w st t := by
        rintro ⟨-, -, h, -⟩; rw [hb] at h; cases h
      obtain ⟨tail, h1, h2, h3⟩ := hO.stream
      constructor
      · intro hf; exact absurd (hO.fresh hf).2 hnu
      · intro hq; exact absurd (hO.waiting hq) hnu
      · exact hO.isOpen
      · intro h; exact (hO.shut h).imp id (fun h => absurd h hnu)
      · exact hO.active
      · refine ⟨tail, ?_, h2, h3⟩
        simp [upd, h1, hb]
      · exact hO.doom
      · have := hO.room
        rw [hb] at this
        simp only [upd, if_true, List.length_cons] at this ⊢; omega
    · exact hO.same Iff.rfl Iff.rfl (by simp [upd, hts]) rfl (by simp [upd, hts]) id rfl Iff.rfl (fun _ => rfl) id

theorem inv_reach {w : World σ μ υ} {st : State σ μ υ} (h : Reach w st) : Inv w st := by
  induction h with
  | init => exact inv_init w
  | step _ hs ih => exact inv_step ih hs

/-! ### Histories -/

/-- The events that remove a subscriber. -/
def Removes (w : World σ μ υ) (s : σ) : Event σ μ υ → Prop
  | .deauth u => w.user s = u
  | .left t => t = s
  | .overflow t => t = s
  | _ => False

/-- Each subscriber joins at most once. -/
def Hist (st : State σ μ υ) (s : σ) : Prop :=
  Event.joined s ∉ st.log ∨
    (s ∉ st.subscribeQ ∧ st.phase s ≠ .fresh ∧
      ∃ l1 l2, st.log = l1 ++ .joined s :: l2 ∧ Event.joined s ∉ l1 ∧ Event.joined s ∉ l2)

theorem Hist.same {st st' : State σ μ υ} {s : σ} (h : Hist st s)
    (hl : st'.log = st.log ∨ ∃ e, e ≠ Event.joined s ∧ st'.log = st.log ++ [e])
    (hq : s ∈ st'.subscribeQ → s ∈ st.subscribeQ ∨ st.phase s = .fresh) (hp : st'.phase s = .fresh → st.phase s = .fresh) :
    Hist st' s := by
  rcases h with h | ⟨h1, h2, l1, l2, h3, h4, h5⟩
  · left
    rcases hl with hl | ⟨e, he, hl⟩
    · rw [hl]; exact h
    · rw [hl, List.mem_append]
      rintro (h' | h')
      · exact h h'
      · rw [List.mem_singleton] at h'; exact he h'.symm
  · right
    refine ⟨fun h => (hq h).elim h1 h2, fun h => h2 (hp h), ?_⟩
    rcases hl with hl | ⟨e, he, hl⟩
    · exact ⟨l1, l2, by rw [hl, h3], h4, h5⟩
    · refine ⟨l1, l2 ++ [e], by rw [hl, h3]; simp, h4, ?_⟩
      rw [List.mem_append]
      rintro (h' | h')
      · exact h5 h'
      · rw [List.mem_singleton] at h'; exact he h'.symm

theorem remove_log (w : World σ μ υ) (st : State σ μ υ) (s : σ) : (remove w st s).log = st.log := by
  unfold remove; split <;> rfl

theorem remove_subscribeQ (w : World σ μ υ) (st : State σ μ υ) (s : σ) :
    (remove w st s).subscribeQ = st.subscribeQ := by
  unfold remove; split <;> rfl

theorem remove_phase (w : World σ μ υ) (st : State σ μ υ) (s : σ) : (remove w st s).phase = st.phase := by
  unfold remove; split <;> rfl

theorem hist_step {w : World σ μ υ} {st st' : State σ μ υ} {a : Act σ μ υ} (hI : Inv w st) {t : σ} (h : Hist st t)
    (hs : step w st a = some st') : Hist st' t := by
  unfold step at hs
  split at hs
  · cases hs
  cases a with
  | connect s =>
    dsimp only at hs
    split at hs
    · cases hs
    rename_i hph
    have hph : st.phase s = .fresh := by simpa using hph
    split at hs
    · cases hs
      refine h.same (Or.inl rfl) ?_ ?_
      · intro hm
        rcases List.mem_append.1 hm with hm | hm
        · exact Or.inl hm
        · rw [List.mem_singleton] at hm; subst hm; exact Or.inr hph
      · by_cases hts : t = s <;> simp [upd, hts]
    · cases hs
      refine h.same (Or.inl rfl) Or.inl ?_
      by_cases hts : t = s <;> simp [upd, hts]
  | disconnect s =>
    dsimp only at hs
    split at hs
    · cases hs
    split at hs <;> cases hs <;> refine h.same (Or.inl rfl) Or.inl ?_ <;> by_cases hts : t = s <;> simp [upd, hts]
  | deauthenticate u =>
    dsimp only at hs
    split at hs
    · cases hs; exact h.same (Or.inl rfl) Or.inl id
    · cases hs
  | broadcast m =>
    dsimp only at hs
    split at hs
    · cases hs; exact h.same (Or.inl rfl) Or.inl id
    · cases hs; exact h
  | takeSubscribe =>
    dsimp only at hs
    split at hs
    · rename_i s q hpc hq
      cases hs
      have hnd := hI.nodupQ
      rw [hq, List.nodup_cons] at hnd
      by_cases hts : t = s
      · subst hts
        have hin : t ∈ st.subscribeQ := by rw [hq]; simp
        rcases h with h | h
        · right
          refine ⟨hnd.1, fun hf => ((hI.one t).fresh hf).1 hin, st.log, [], rfl, h, by simp⟩
        · exact absurd hin h.1
      · refine h.same (Or.inr ⟨_, ?_, rfl⟩) ?_ id
        · intro he; cases he; exact hts rfl
        · intro hm; left; rw [hq]; exact List.mem_cons_of_mem _ hm
    · cases hs
  | takeUnsubscribe =>
    dsimp only at hs
    split at hs
    · rename_i s q hpc hq
      split at hs
      · cases hs
        refine h.same (Or.inr ⟨.left s, by simp, by rw [remove_log]⟩) ?_ ?_
        · rw [remove_subscribeQ]; exact Or.inl
        · rw [remove_phase]; exact id
      · cases hs
        exact h.same (Or.inr ⟨.left s, by simp, rfl⟩) Or.inl id
    · cases hs
  | takeDeauth order =>
    dsimp only at hs
    split at hs
    · split at hs
      · cases hs; exact h.same (Or.inr ⟨_, by simp, rfl⟩) Or.inl id
      · cases hs
    · cases hs
  | takeMessage order =>
    dsimp only at hs
    split at hs
    · split at hs
      · cases hs; exact h.same (Or.inr ⟨_, by simp, rfl⟩) Or.inl id
      · cases hs
    · cases hs
  | next =>
    dsimp only at hs
    split at hs
    · cases hs
    · cases hs; exact h.same (Or.inl rfl) Or.inl id
    · rename_i m s todo' hpc
      split at hs
      · split at hs
        · cases hs; exact h.same (Or.inl rfl) Or.inl id
        · split at hs
          · cases hs; exact h.same (Or.inl rfl) Or.inl id
          · cases hs
            refine h.same (Or.inr ⟨.overflow s, by simp, by rw [remove_log]⟩) ?_ ?_
            · rw [remove_subscribeQ]; exact Or.inl
            · rw [remove_phase]; exact id
      · cases hs; exact h.same (Or.inl rfl) Or.inl id
    · cases hs; exact h.same (Or.inl rfl) Or.inl id
    · split at hs
      · cases hs
        refine h.same (Or.inl (by rw [remove_log])) ?_ ?_
        · rw [remove_subscribeQ]; exact Or.inl
        · rw [remove_phase]; exact id
      · cases hs; exact h.same (Or.inl rfl) Or.inl id
  | take s =>
    dsimp only at hs
    split at hs
    · cases hs
    split at hs
    · cases hs
    cases hs; exact h.same (Or.inl rfl) Or.inl id

theorem hist_reach {w : World σ μ υ} {st : State σ μ υ} (h : Reach w st) (s : σ) : Hist st s := by
  induction h with
  | init => left; simp
  | step hr hs ih => exact hist_step (inv_reach hr) ih hs

theorem fold_absent (w : World σ μ υ) (s : σ) (l : List (Event σ μ υ)) (ms : List μ) (h : Event.joined s ∉ l) :
    l.foldl (owe w s) (false, ms) = (false, ms) := by
  induction l with
  | nil => rfl
  | cons e es ih =>
    simp only [List.mem_cons, not_or] at h
    rw [List.foldl_cons]
    have : owe w s (false, ms) e = (false, ms) := by
      cases e with
      | joined t =>
        have : t ≠ s := by rintro rfl; exact h.1 rfl
        simp [owe, this]
      | message m => simp [owe]
      | deauth u => simp [owe]
      | left t => simp [owe]
      | overflow t => simp [owe]
    rw [this]; exact ih h.2

theorem fold_live (w : World σ μ υ) (s : σ) (l : List (Event σ μ υ)) (ms : List μ) (h : ∀ e ∈ l, ¬ Removes w s e) :
    l.foldl (owe w s) (true, ms) = (true, ms ++ (messages l).filter (w.wants s)) := by
  induction l generalizing ms with
  | nil => simp [messages]
  | cons e es ih =>
    have h1 := h e (by simp)
    have h2 : ∀ e ∈ es, ¬ Removes w s e := fun x hx => h x (by simp [hx])
    rw [List.foldl_cons]
    cases e with
    | joined t => simp only [owe, Bool.true_or, messages]; exact ih ms h2
    | message m =>
      simp only [owe, Bool.true_and, messages, List.filter_cons]
      rw [ih _ h2]
      split <;> simp
    | deauth u =>
      simp only [Removes] at h1
      simp only [owe, Bool.true_and, messages, h1, ne_eq, not_false_eq_true, decide_true]
      exact ih ms h2
    | left t =>
      simp only [Removes] at h1
      simp only [owe, Bool.true_and, messages, h1, ne_eq, not_false_eq_true, decide_true]
      exact ih ms h2
    | overflow t =>
      simp only [Removes] at h1
      simp only [owe, Bool.true_and, messages, h1, ne_eq, not_false_eq_true, decide_true]
      exact ih ms h2

theorem owe_removes (w : World σ μ υ) (s : σ) (e : Event σ μ υ) (x : Bool × List μ) (h : Removes w s e) :
    owe w s x e = (false, x.2) := by
  cases e with
  | joined t => cases h
  | message m => cases h
  | deauth u => simp only [Removes] at h; simp [owe, h]
  | left t => simp only [Removes] at h; simp [owe, h]
  | overflow t => simp only [Removes] at h; simp [owe, h]

theorem account_live (w : World σ μ υ) (s : σ) (l1 l2 : List (Event σ μ υ)) (h1 : Event.joined s ∉ l1)
    (h2 : ∀ e ∈ l2, ¬ Removes w s e) :
    account w s (l1 ++ .joined s :: l2) = (true, (messages l2).filter (w.wants s)) := by
  unfold account
  rw [List.foldl_append, fold_absent w s l1 [] h1, List.foldl_cons]
  simp only [owe, decide_true, Bool.or_true]
  rw [fold_live w s l2 [] h2, List.nil_append]

theorem account_removed (w : World σ μ υ) (s : σ) (l1 l2 l3 : List (Event σ μ υ)) (r : Event σ μ υ)
    (h1 : Event.joined s ∉ l1) (h2 : ∀ e ∈ l2, ¬ Removes w s e) (hr : Removes w s r) (h3 : Event.joined s ∉ l3) :
    account w s (l1 ++ .joined s :: (l2 ++ r :: l3)) = (false, (messages l2).filter (w.wants s)) := by
  have := account_live w s l1 l2 h1 h2
  unfold account at this ⊢
  rw [show l1 ++ Event.joined s :: (l2 ++ r :: l3) = (l1 ++ .joined s :: l2) ++ r :: l3 by simp, List.foldl_append,
    this, List.foldl_cons, owe_removes w s r _ hr, fold_absent w s l3 _ h3]

theorem split_removes (w : World σ μ υ) (s : σ) (l : List (Event σ μ υ)) :
    (∀ e ∈ l, ¬ Removes w s e) ∨ ∃ a r b, l = a ++ r :: b ∧ (∀ e ∈ a, ¬ Removes w s e) ∧ Removes w s r := by
  induction l with
  | nil => left; simp
  | cons e es ih =>
    by_cases h : Removes w s e
    · right; exact ⟨[], e, es, rfl, by simp, h⟩
    · rcases ih with ih | ⟨a, r, b, h1, h2, h3⟩
      · left; intro x hx
        rcases List.mem_cons.1 hx with rfl | hx
        · exact h
        · exact ih x hx
      · right
        refine ⟨e :: a, r, b, by simp [h1], ?_, h3⟩
        intro x hx
        rcases List.mem_cons.1 hx with rfl | hx
        · exact h
        · exact h2 x hx

/-! ### C42 -/

/-- **C42** (order). The messages that were processed, followed by those that wait, are those that `Broadcast`
accepted, in that order. -/
theorem C42_order (w : World σ μ υ) (st : State σ μ υ) (h : Reach w st) :
    messages st.log ++ st.messageQ = st.accepted := (inv_reach h).order

/-- **C42** (live subscribers). Whenever the broadcaster is between two requests, what a registered subscriber has
taken followed by what is buffered for it are exactly the messages it wants among those processed since it joined. -/
theorem C42_live (w : World σ μ υ) (st : State σ μ υ) (h : Reach w st) (s : σ) (hr : s ∈ st.registered)
    (hidle : st.pc = .idle) :
    ∃ l1 l2, st.log = l1 ++ .joined s :: l2 ∧ (∀ e ∈ l2, ¬ Removes w s e) ∧
      st.taken s ++ st.buffer s = (messages l2).filter (w.wants s) := by
  have hO := (inv_reach h).one s
  obtain ⟨tail, h1, h2, -⟩ := hO.stream
  have ht := h2 hr
  rw [hidle] at ht
  simp only [pending] at ht
  subst ht
  have hact := hO.active.1 hr
  rw [hidle] at hact
  simp only [doomed, or_false] at hact
  rcases hist_reach h s with hn | ⟨-, -, l1, l2, h3, h4, h5⟩
  · unfold account at hact; rw [fold_absent w s _ _ hn] at hact; cases hact
  · rcases split_removes w s l2 with h6 | ⟨a, r, b, h6, h7, h8⟩
    · refine ⟨l1, l2, h3, h6, ?_⟩
      rw [h3, account_live w s l1 l2 h4 h6] at h1
      simpa using h1.symm
    · exfalso
      rw [h6] at h5 h3
      rw [h3, account_removed w s l1 a b r h4 h7 h8 (fun hm => h5 (by simp [hm]))] at hact
      cases hact

/-- **C42** (removed subscribers). What a subscriber has taken or can still take after it was removed are the
messages it wants among those processed between joining and removal: all of them, or, if its buffer was full, all but
the last one. -/
theorem C42_removed (w : World σ μ υ) (st : State σ μ υ) (h : Reach w st) (s : σ)
    (l1 l2 l3 : List (Event σ μ υ)) (r : Event σ μ υ) (hlog : st.log = l1 ++ .joined s :: (l2 ++ r :: l3))
    (h2 : ∀ e ∈ l2, ¬ Removes w s e) (hr : Removes w s r) (hout : s ∉ st.registered) :
    st.taken s ++ st.buffer s = (messages l2).filter (w.wants s) ∨
    (r = .overflow s ∧ ∃ m, st.taken s ++ st.buffer s ++ [m] = (messages l2).filter (w.wants s)) := by
  rcases hist_reach h s with hn | ⟨-, -, k1, k2, h3, h4, h5⟩
  · exact absurd (by rw [hlog]; simp) hn
  · have huniq : ∀ (a b c d : List (Event σ μ υ)), a ++ .joined s :: b = c ++ .joined s :: d → Event.joined s ∉ c →
          Event.joined s ∉ d → c = a ∧ d = b := by
        intro a b c d
        induction a generalizing c with
        | nil =>
          cases c with
          | nil => intro he _ _; simp only [List.nil_append, List.cons.injEq, true_and] at he; exact ⟨rfl, he.symm⟩
          | cons x xs =>
            intro he hc _
            simp only [List.nil_append, List.cons_append, List.cons.injEq] at he
            exact absurd (by rw [← he.1]; simp) hc
        | cons y ys ih =>
          cases c with
          | nil =>
            intro he _ hd
            simp only [List.nil_append, List.cons_append, List.cons.injEq] at he
            exact absurd (by rw [← he.2]; simp) hd
          | cons x xs =>
            intro he hc hd
            simp only [List.cons_append, List.cons.injEq] at he
            obtain ⟨e1, e2⟩ := ih xs he.2 (fun h => hc (by simp [h])) hd
            exact ⟨by rw [e1, he.1], e2⟩
    have hsame : k1 = l1 ∧ k2 = l2 ++ r :: l3 := by
      rw [hlog] at h3
      exact huniq _ _ _ _ h3 h4 h5
    obtain ⟨rfl, rfl⟩ := hsame
    obtain ⟨tail, e1, -, e3⟩ := ((inv_reach h).one s).stream
    rw [hlog, account_removed w s k1 l2 l3 r h4 h2 hr (fun hm => h5 (by simp [hm]))] at e1
    rcases e3 hout with rfl | ⟨ho, m, rfl⟩
    · left; simpa using e1.symm
    · right
      refine ⟨?_, m, e1.symm⟩
      obtain ⟨a, b, hab, hact⟩ := ho
      -- where is the overflow?
      rw [hlog, show k1 ++ Event.joined s :: (l2 ++ r :: l3) = (k1 ++ .joined s :: l2) ++ r :: l3 by simp] at hab
      rcases List.append_eq_append_iff.1 hab with ⟨x, hx, hy⟩ | ⟨x, hx, hy⟩
      · -- not before `r`
        cases x with
        | nil =>
          simp only [List.nil_append, List.cons.injEq] at hy
          exact hy.1
        | cons z zs =>
          simp only [List.cons_append, List.cons.injEq] at hy
          exfalso
          rw [hx, ← hy.1, show k1 ++ Event.joined s :: l2 ++ r :: zs = k1 ++ .joined s :: (l2 ++ r :: zs) by simp,
            account_removed w s k1 l2 zs r h4 h2 hr (fun hm => h5 (by rw [hy.2]; simp [hm]))] at hact
          cases hact
      · cases x with
        | nil =>
          simp only [List.nil_append, List.cons.injEq] at hy
          exact hy.1.symm
        | cons z zs =>
          simp only [List.cons_append, List.cons.injEq] at hy
          exfalso
          -- `overflow s` would be in `k1` or `l2`
          obtain ⟨hz, -⟩ := hy
          subst hz
          rcases List.append_eq_append_iff.1 hx with ⟨v, hv, hu⟩ | ⟨v, hv, hu⟩
          · cases v with
            | nil => simp at hu
            | cons v vs =>
              simp only [List.cons_append, List.cons.injEq] at hu
              exact h2 (.overflow s) (by rw [hu.2]; simp) rfl
          · exfalso
            unfold account at hact
            rw [fold_absent w s a [] (fun hm => h4 (by rw [hv]; simp [hm]))] at hact
            cases hact

/-- **C42** (overflow). A subscriber is disconnected for overflow only while a message that it wants finds its buffer
full, and then it is closed at once: it never misses a message and stays. -/
theorem C42_overflow (w : World σ μ υ) (st st' : State σ μ υ) (h : Reach w st) (a : Act σ μ υ)
    (hs : step w st a = some st') (s : σ) (hn : Event.overflow s ∉ st.log) (ho : Event.overflow s ∈ st'.log) :
    (∃ m l, st.pc = .dispatch m (s :: l) ∧ w.wants s m = true) ∧ (st.buffer s).length = w.channelLength ∧
    s ∉ st'.registered ∧ st'.closed s = true := by
  have hI := inv_reach h
  have hI' := inv_step hI hs
  have hroom := (hI.one s).room
  unfold step at hs
  split at hs
  · cases hs
  cases a with
  | connect t =>
    dsimp only at hs
    split at hs
    · cases hs
    · split at hs <;> cases hs <;> exact absurd ho hn
  | disconnect t =>
    dsimp only at hs
    split at hs
    · cases hs
    · split at hs <;> cases hs <;> exact absurd ho hn
  | deauthenticate u =>
    dsimp only at hs
    split at hs
    · cases hs; exact absurd ho hn
    · cases hs
  | broadcast m =>
    dsimp only at hs
    split at hs <;> cases hs <;> exact absurd ho hn
  | takeSubscribe =>
    dsimp only at hs
    split at hs
    · cases hs; simp at ho; exact absurd ho hn
    · cases hs
  | takeUnsubscribe =>
    dsimp only at hs
    split at hs
    · split at hs
      · cases hs; rw [remove_log] at ho; simp at ho; exact absurd ho hn
      · cases hs; simp at ho; exact absurd ho hn
    · cases hs
  | takeDeauth order =>
    dsimp only at hs
    split at hs
    · split at hs
      · cases hs; simp at ho; exact absurd ho hn
      · cases hs
    · cases hs
  | takeMessage order =>
    dsimp only at hs
    split at hs
    · split at hs
      · cases hs; simp at ho; exact absurd ho hn
      · cases hs
    · cases hs
  | next =>
    dsimp only at hs
    split at hs
    · cases hs
    · cases hs; exact absurd ho hn
    · rename_i m t l hpc
      split at hs
      · rename_i hw
        split at hs
        · cases hs; exact absurd ho hn
        · rename_i hcl
          split at hs
          · cases hs; exact absurd ho hn
          · rename_i hlen
            cases hs
            rw [remove_log] at ho
            simp only [List.mem_append, List.mem_singleton, Event.overflow.injEq] at ho
            rcases ho with ho | ho
            · exact absurd ho hn
            · subst ho
              have hopen : st.closed s = false := by simpa using hcl
              refine ⟨⟨m, l, hpc, hw⟩, by omega, ?_, ?_⟩
              · have : (remove w { st with pc := .dispatch m l, log := st.log ++ [.overflow s] } s).registered =
                    st.registered.erase s := by unfold remove; split <;> rfl
                rw [this, hI.nodup.mem_erase_iff]; simp
              · unfold remove; simp [hopen, upd]
      · cases hs; exact absurd ho hn
    · cases hs; exact absurd ho hn
    · split at hs
      · cases hs; rw [remove_log] at ho; exact absurd ho hn
      · cases hs; exact absurd ho hn
  | take t =>
    dsimp only at hs
    split at hs
    · cases hs
    split at hs
    · cases hs
    cases hs; exact absurd ho hn

/-! ### C43 -/

/-- **C43.** The broadcaster never sends on a closed channel and never closes one twice. -/
theorem C43_no_panic (w : World σ μ υ) (st : State σ μ υ) (h : Reach w st) : st.panicked = false :=
  (inv_reach h).calm

theorem closed_step {w : World σ μ υ} {st st' : State σ μ υ} {a : Act σ μ υ} (hI : Inv w st) {s : σ}
    (hc : st.closed s = true) (hs : step w st a = some st') :
    st'.closed s = true ∧ st'.taken s ++ st'.buffer s = st.taken s ++ st.buffer s := by
  have hnr : s ∉ st.registered := fun h => by rw [(hI.one s).isOpen h] at hc; cases hc
  have hrem : ∀ (x : State σ μ υ) t, x.closed = st.closed → x.taken = st.taken → x.buffer = st.buffer →
      (remove w x t).closed s = true ∧ (remove w x t).taken s ++ (remove w x t).buffer s =
        st.taken s ++ st.buffer s := by
    intro x t h1 h2 h3
    unfold remove
    split
    · exact ⟨by rw [h1]; exact hc, by rw [h2, h3]⟩
    · refine ⟨?_, by rw [h2, h3]⟩
      simp only [upd, h1]
      split
      · rfl
      · exact hc
  unfold step at hs
  split at hs
  · cases hs
  cases a with
  | connect t =>
    dsimp only at hs
    split at hs
    · cases hs
    · split at hs <;> cases hs <;> exact ⟨hc, rfl⟩
  | disconnect t =>
    dsimp only at hs
    split at hs
    · cases hs
    · split at hs <;> cases hs <;> exact ⟨hc, rfl⟩
  | deauthenticate u =>
    dsimp only at hs
    split at hs
    · cases hs; exact ⟨hc, rfl⟩
    · cases hs
  | broadcast m => dsimp only at hs; split at hs <;> cases hs <;> exact ⟨hc, rfl⟩
  | takeSubscribe =>
    dsimp only at hs
    split at hs
    · cases hs; exact ⟨hc, rfl⟩
    · cases hs
  | takeUnsubscribe =>
    dsimp only at hs
    split at hs
    · split at hs
      · cases hs; exact hrem _ _ rfl rfl rfl
      · cases hs; exact ⟨hc, rfl⟩
    · cases hs
  | takeDeauth order =>
    dsimp only at hs
    split at hs
    · split at hs <;> cases hs; exact ⟨hc, rfl⟩
    · cases hs
  | takeMessage order =>
    dsimp only at hs
    split at hs
    · split at hs <;> cases hs; exact ⟨hc, rfl⟩
    · cases hs
  | next =>
    dsimp only at hs
    split at hs
    · cases hs
    · cases hs; exact ⟨hc, rfl⟩
    · rename_i m t l hpc
      split at hs
      · split at hs
        · cases hs; exact ⟨hc, rfl⟩
        · rename_i hcl
          split at hs
          · cases hs
            have hts : s ≠ t := by rintro rfl; exact hcl hc
            exact ⟨hc, by simp [upd, hts]⟩
          · cases hs; exact hrem _ _ rfl rfl rfl
      · cases hs; exact ⟨hc, rfl⟩
    · cases hs; exact ⟨hc, rfl⟩
    · split at hs
      · cases hs; exact hrem _ _ rfl rfl rfl
      · cases hs; exact ⟨hc, rfl⟩
  | take t =>
    dsimp only at hs
    split at hs
    · cases hs
    split at hs
    · cases hs
    rename_i m ms hb
    cases hs
    refine ⟨hc, ?_⟩
    by_cases hts : s = t
    · subst hts; simp [upd, hb]
    · simp [upd, hts]

/-- A number of actions. -/
def steps (w : World σ μ υ) (st : State σ μ υ) : List (Act σ μ υ) → Option (State σ μ υ)
  | [] => some st
  | a :: as => (step w st a).bind (steps w · as)

theorem reach_steps {w : World σ μ υ} {st st' : State σ μ υ} {as : List (Act σ μ υ)} (h : Reach w st)
    (hs : steps w st as = some st') : Reach w st' := by
  induction as generalizing st with
  | nil => cases hs; exact h
  | cons a as ih =>
    simp only [steps, Option.bind_eq_some_iff] at hs
    obtain ⟨x, h1, h2⟩ := hs
    exact ih (.step h h1) h2

theorem registered_step {w : World σ μ υ} {st st' : State σ μ υ} {a : Act σ μ υ} (hI : Inv w st) {s : σ}
    (hr : s ∈ st.registered) (hs : step w st a = some st') : s ∈ st'.registered ∨ st'.closed s = true := by
  have hopen := (hI.one s).isOpen hr
  have hrem : ∀ (x : State σ μ υ) t, x.closed = st.closed → x.registered = st.registered →
      s ∈ (remove w x t).registered ∨ (remove w x t).closed s = true := by
    intro x t h1 h2
    by_cases hts : s = t
    · subst hts
      right
      unfold remove
      rw [h1, hopen]
      simp [upd]
    · left
      have : (remove w x t).registered = x.registered.erase t := by unfold remove; split <;> rfl
      rw [this, h2]
      exact (List.mem_erase_of_ne hts).2 hr
  unfold step at hs
  split at hs
  · cases hs
  cases a with
  | connect t =>
    dsimp only at hs
    split at hs
    · cases hs
    · split at hs <;> cases hs <;> exact Or.inl hr
  | disconnect t =>
    dsimp only at hs
    split at hs
    · cases hs
    · split at hs <;> cases hs <;> exact Or.inl hr
  | deauthenticate u =>
    dsimp only at hs
    split at hs
    · cases hs; exact Or.inl hr
    · cases hs
  | broadcast m => dsimp only at hs; split at hs <;> cases hs <;> exact Or.inl hr
  | takeSubscribe =>
    dsimp only at hs
    split at hs
    · cases hs
      left; dsimp only; split
      · exact hr
      · exact List.mem_cons_of_mem _ hr
    · cases hs
  | takeUnsubscribe =>
    dsimp only at hs
    split at hs
    · split at hs
      · cases hs; exact hrem _ _ rfl rfl
      · cases hs; exact Or.inl hr
    · cases hs
  | takeDeauth order =>
    dsimp only at hs
    split at hs
    · split at hs <;> cases hs; exact Or.inl hr
    · cases hs
  | takeMessage order =>
    dsimp only at hs
    split at hs
    · split at hs <;> cases hs; exact Or.inl hr
    · cases hs
  | next =>
    dsimp only at hs
    split at hs
    · cases hs
    · cases hs; exact Or.inl hr
    · split at hs
      · split at hs
        · cases hs; exact Or.inl hr
        · split at hs
          · cases hs; exact Or.inl hr
          · cases hs; exact hrem _ _ rfl rfl
      · cases hs; exact Or.inl hr
    · cases hs; exact Or.inl hr
    · split at hs
      · cases hs; exact hrem _ _ rfl rfl
      · cases hs; exact Or.inl hr
  | take t =>
    dsimp only at hs
    split at hs
    · cases hs
    split at hs
    · cases hs
    cases hs; exact Or.inl hr

theorem closed_steps {w : World σ μ υ} {s : σ} (bs : List (Act σ μ υ)) (x y : State σ μ υ) (hx : Reach w x)
    (hs : steps w x bs = some y) (hc : x.closed s = true) :
    y.closed s = true ∧ y.taken s ++ y.buffer s = x.taken s ++ x.buffer s := by
  induction bs generalizing x with
  | nil => cases hs; exact ⟨hc, rfl⟩
  | cons a as ih =>
    simp only [steps, Option.bind_eq_some_iff] at hs
    obtain ⟨z, e1, e2⟩ := hs
    have e3 := closed_step (inv_reach hx) hc e1
    have e4 := ih z (.step hx e1) e2 e3.1
    exact ⟨e4.1, e4.2.trans e3.2⟩

theorem registered_steps {w : World σ μ υ} {s : σ} (as : List (Act σ μ υ)) (x y : State σ μ υ) (hx : Reach w x)
    (hs : steps w x as = some y) (hor : s ∈ x.registered) : s ∈ y.registered ∨ y.closed s = true := by
  induction as generalizing x with
  | nil => cases hs; exact Or.inl hor
  | cons a as ih =>
    simp only [steps, Option.bind_eq_some_iff] at hs
    obtain ⟨z, e1, e2⟩ := hs
    rcases registered_step (inv_reach hx) hor e1 with h | h
    · exact ih z (.step hx e1) e2 h
    · exact Or.inr (closed_steps as z y (.step hx e1) e2 h).1

/-- **C43** (removed for good). A subscriber that was registered and is no longer has a closed channel, never gets
another message and is never registered again, whatever happens later. -/
theorem C43_removed_for_good (w : World σ μ υ) (st1 st2 st3 : State σ μ υ) (h : Reach w st1) (as bs : List (Act σ μ υ))
    (h12 : steps w st1 as = some st2) (h23 : steps w st2 bs = some st3) (s : σ) (hin : s ∈ st1.registered)
    (hout : s ∉ st2.registered) :
    st2.closed s = true ∧ s ∉ st3.registered ∧
    st3.taken s ++ st3.buffer s = st2.taken s ++ st2.buffer s := by
  have h2 := reach_steps h h12
  have hcl : st2.closed s = true := (registered_steps as st1 st2 h h12 hin).resolve_left hout
  obtain ⟨e1, e2⟩ := closed_steps bs st2 st3 h2 h23 hcl
  refine ⟨hcl, fun hr => ?_, e2⟩
  rw [((inv_reach (reach_steps h2 h23)).one s).isOpen hr] at e1
  cases e1

/-! ### C44 -/

/-- **C44** (who is registered). Whenever the broadcaster is between two requests, the registered subscribers are
those that joined and that nothing has removed since: no deauthentication of their user, no unsubscription and no
overflow. -/
theorem C44_registered (w : World σ μ υ) (st : State σ μ υ) (h : Reach w st) (hidle : st.pc = .idle) (s : σ) :
    s ∈ st.registered ↔ ∃ l1 l2, st.log = l1 ++ .joined s :: l2 ∧ ∀ e ∈ l2, ¬ Removes w s e := by
  constructor
  · intro hr
    obtain ⟨l1, l2, h1, h2, -⟩ := C42_live w st h s hr hidle
    exact ⟨l1, l2, h1, h2⟩
  · rintro ⟨l1, l2, h1, h2⟩
    rw [((inv_reach h).one s).active]
    left
    unfold account
    rw [h1, List.foldl_append, List.foldl_cons]
    have : (owe w s (l1.foldl (owe w s) (false, [])) (.joined s)).1 = true := by simp [owe]
    generalize owe w s (l1.foldl (owe w s) (false, [])) (.joined s) = x at this
    obtain ⟨b, ms⟩ := x
    cases this
    rw [fold_live w s l2 ms h2]

/-- **C44** (effect). After a deauthentication of a user was processed, none of their subscribers is registered,
except those that joined after it. -/
theorem C44_deauthenticated (w : World σ μ υ) (st : State σ μ υ) (h : Reach w st) (hidle : st.pc = .idle) (s : σ)
    (l1 l2 : List (Event σ μ υ)) (hlog : st.log = l1 ++ .deauth (w.user s) :: l2) (hj : Event.joined s ∉ l2) :
    s ∉ st.registered := by
  rw [((inv_reach h).one s).active, hidle]
  simp only [doomed, or_false]
  unfold account
  rw [hlog, List.foldl_append, List.foldl_cons, owe_removes w s (.deauth (w.user s)) _ rfl, fold_absent w s _ _ hj]
  simp

/-- **C44** (others). From taking a deauthentication of `u` until it is done, only subscribers of `u` are removed,
and nobody joins. -/
theorem C44_others (w : World σ μ υ) (st st' : State σ μ υ) (h : Reach w st) (a : Act σ μ υ) (u : υ) (l : List σ)
    (hpc : st.pc = .deauthing u l) (hs : step w st a = some st') (s : σ) (hu : w.user s ≠ u) :
    s ∈ st'.registered ↔ s ∈ st.registered := by
  have hI := inv_reach h
  unfold step at hs
  split at hs
  · cases hs
  cases a with
  | connect t =>
    dsimp only at hs
    split at hs
    · cases hs
    · split at hs <;> cases hs <;> exact Iff.rfl
  | disconnect t =>
    dsimp only at hs
    split at hs
    · cases hs
    · split at hs <;> cases hs <;> exact Iff.rfl
  | deauthenticate u =>
    dsimp only at hs
    split at hs
    · cases hs; exact Iff.rfl
    · cases hs
  | broadcast m => dsimp only at hs; split at hs <;> cases hs <;> exact Iff.rfl
  | takeSubscribe => rw [hpc] at hs; cases hs
  | takeUnsubscribe => rw [hpc] at hs; cases hs
  | takeDeauth order => rw [hpc] at hs; cases hs
  | takeMessage order => rw [hpc] at hs; cases hs
  | next =>
    rw [hpc] at hs
    cases l with
    | nil => cases hs; exact Iff.rfl
    | cons t l =>
      dsimp only at hs
      split at hs
      · rename_i ht
        cases hs
        have : ∀ x : State σ μ υ, (remove w x t).registered = x.registered.erase t := by
          intro x; unfold remove; split <;> rfl
        rw [this]
        exact List.mem_erase_of_ne (by rintro rfl; exact hu ht)
      · cases hs; exact Iff.rfl
  | take t =>
    dsimp only at hs
    split at hs
    · cases hs
    split at hs
    · cases hs
    cases hs; exact Iff.rfl

/-! ### C45 -/

/-- **C45.** The gauges always equal the numbers of registered subscribers with each transport. -/
theorem C45_gauges (w : World σ μ υ) (st : State σ μ υ) (h : Reach w st) :
    st.registered.Nodup ∧ st.wsGauge = (st.registered.filter (fun s => w.ws s)).length ∧
    st.sseGauge = (st.registered.filter (fun s => !w.ws s)).length := by
  have hI := inv_reach h
  refine ⟨hI.nodup, ?_, ?_⟩
  · rw [hI.ws, List.countP_eq_length_filter]
  · rw [hI.sse, List.countP_eq_length_filter]

/-! ### A history, and what goes wrong

Subscriber 0 belongs to user 7 and uses a WebSocket, subscriber 1 belongs to user 8; both want even messages. -/

def demo : World Nat Nat Nat := ⟨fun s => s + 7, fun s => s == 0, fun _ m => m % 2 == 0, 2⟩

/-- Both join, three messages of which one is not wanted, subscriber 0 reads one, three more messages, so that
subscriber 1 overflows, and user 7 is deauthenticated. -/
def demoActs : List (Act Nat Nat Nat) :=
  [.connect 0, .connect 1, .takeSubscribe, .takeSubscribe, .broadcast 2, .takeMessage [0, 1], .next, .next, .next,
   .broadcast 3, .broadcast 4, .takeMessage [1, 0], .next, .next, .next, .takeMessage [1, 0], .next, .next, .next,
   .take 0, .broadcast 6, .takeMessage [0, 1], .next, .next, .next, .deauthenticate 7, .broadcast 8, .takeDeauth [0],
   .next, .next, .takeMessage [], .next]

example : (steps demo {} demoActs).map (fun st => (st.registered, st.taken 0, st.buffer 0, st.buffer 1, st.closed 0,
    st.closed 1)) = some ([], [2], [4, 6], [2, 4], true, true) := by decide +kernel

example : (steps demo {} (demoActs.take 25)).map (fun st => (st.registered, st.wsGauge, st.sseGauge, st.taken 0,
    st.buffer 0)) = some ([0], 1, 0, [2], [4, 6]) := by decide +kernel

/-- **C44** (requests overtake each other). A subscription that was requested before a deauthentication can be
processed after it and then stays: the user is deauthenticated and registered. -/
theorem C44_overtaken : ∃ st, steps demo {} [.connect 0, .deauthenticate 7, .takeDeauth [], .next, .takeSubscribe] =
    some st ∧ st.registered = [0] ∧ st.deauthQ = [] ∧ st.subscribeQ = [] ∧ st.phase 0 = .running :=
  ⟨_, rfl, by decide +kernel⟩

/-- **C71 is false**: an unsubscription can be processed before the subscription it follows, so that the subscriber
of a connection that is gone stays registered when all requests have been processed. -/
theorem C71_leak : ∃ st, steps demo {} [.connect 0, .disconnect 0, .takeUnsubscribe, .takeSubscribe] = some st ∧
    st.registered = [0] ∧ st.phase 0 = .gone ∧ st.unsubscribeQ = [] ∧ st.subscribeQ = [] :=
  ⟨_, rfl, by decide +kernel⟩

/-- **C71** (partial: if the requests do not overtake each other). A subscriber whose unsubscription was processed
after its subscription is not registered. -/
theorem C71_unregistered_partial (w : World σ μ υ) (st : State σ μ υ) (h : Reach w st) (hidle : st.pc = .idle) (s : σ)
    (l1 l2 l3 : List (Event σ μ υ)) (hlog : st.log = l1 ++ .joined s :: l2 ++ .left s :: l3) : s ∉ st.registered := by
  rw [((inv_reach h).one s).active, hidle]
  simp only [doomed, or_false]
  have hj : Event.joined s ∉ l3 := by
    rcases hist_reach h s with hn | ⟨-, -, k1, k2, h3, h4, h5⟩
    · exact absurd (by rw [hlog]; simp) hn
    · intro hm
      rw [hlog] at h3
      -- two occurrences of joining
      have hcount := congrArg (List.countP fun e => match e with | Event.joined t => decide (t = s) | _ => false) h3
      have hz : ∀ l : List (Event σ μ υ), Event.joined s ∉ l →
          l.countP (fun e => match e with | Event.joined t => decide (t = s) | _ => false) = 0 := by
        intro l hl
        rw [List.countP_eq_zero]
        intro e he
        cases e with
        | joined t =>
          simp only [decide_eq_true_eq]
          rintro rfl; exact hl he
        | message m => simp
        | deauth u => simp
        | left t => simp
        | overflow t => simp
      have hpos : 0 < l3.countP (fun e => match e with | Event.joined t => decide (t = s) | _ => false) := by
        rw [List.countP_pos_iff]; exact ⟨_, hm, by simp⟩
      simp only [List.countP_append, List.countP_cons, hz k1 h4, hz k2 h5] at hcount
      simp at hcount
      omega
  unfold account
  rw [hlog, List.foldl_append, List.foldl_cons, owe_removes w s (.left s) _ rfl, fold_absent w s _ _ hj]
  simp

end Quark.Broadcast
