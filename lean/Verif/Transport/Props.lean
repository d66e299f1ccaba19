import Verif.Transport.Model

namespace Quark.Transport

/-- What holds at any time. -/
def Inv (s : State) : Prop :=
  match s.kind with
  | .webSocket => s.closes = if s.readDone then 1 else 0
  | .sse => s.closes ≤ (if s.readDone then 1 else 0) + (if s.runDone ∧ s.sendClosed then 1 else 0)

theorem inv_step {b : Bool} {s s' : State} {a : Act} (h : Inv s) (hs : step b s a = some s') :
    Inv s' ∧ s'.kind = s.kind := by
  obtain ⟨k, sc, cg, rd, red, n⟩ := s
  cases k <;> cases a <;> cases sc <;> cases cg <;> cases rd <;> cases red <;> cases b <;>
    simp [step] at hs <;>
    first
      | (obtain ⟨h1, rfl⟩ := hs; simp [Inv] at h ⊢; omega)
      | (subst hs; simp [Inv] at h ⊢; omega)
      | (subst hs; simp [Inv] at h ⊢; first | exact h | skip)

theorem inv_steps {b : Bool} (as : List Act) {s s' : State} (h : Inv s) (hs : steps b s as = some s') :
    Inv s' ∧ s'.kind = s.kind := by
  induction as generalizing s with
  | nil => cases hs; exact ⟨h, rfl⟩
  | cons a as ih =>
    simp only [steps, Option.bind_eq_some_iff] at hs
    obtain ⟨x, h1, h2⟩ := hs
    obtain ⟨h3, h4⟩ := inv_step h h1
    obtain ⟨h5, h6⟩ := ih h3 h2
    exact ⟨h5, h6.trans h4⟩

/-- **C47** (WebSockets). Under every schedule, the channel of a WebSocket is closed at most once. -/
theorem C47_websocket (b : Bool) (as : List Act) (s : State) (hs : steps b { kind := .webSocket } as = some s) :
    s.closes ≤ 1 := by
  obtain ⟨h, hk⟩ := inv_steps as (by simp [Inv]) hs
  unfold Inv at h
  rw [hk] at h
  dsimp only at h
  rw [h]; split <;> omega

/-- **C47** (server-sent events; partial: unless the broadcaster closes the subscriber). -/
theorem C47_sse_partial (b : Bool) (as : List Act) (s : State) (hs : steps b { kind := .sse } as = some s)
    (hno : Act.broadcasterCloses ∉ as) : s.closes ≤ 1 := by
  obtain ⟨h, hk⟩ := inv_steps as (by simp [Inv]) hs
  have hsc : s.sendClosed = false := by
    have : ∀ (as : List Act) (x y : State), steps b x as = some y → Act.broadcasterCloses ∉ as →
        x.sendClosed = false → y.sendClosed = false := by
      intro as
      induction as with
      | nil => intro x y h _ hx; cases h; exact hx
      | cons a as ih =>
        intro x y h hn hx
        simp only [steps, Option.bind_eq_some_iff] at h
        obtain ⟨z, h1, h2⟩ := h
        simp only [List.mem_cons, not_or] at hn
        refine ih z y h2 hn.2 ?_
        cases a with
        | broadcasterCloses => exact absurd rfl hn.1
        | clientGoes => cases h1; exact hx
        | runSeesClose => simp only [step] at h1; split at h1 <;> cases h1; exact hx
        | runSeesSendClosed => simp [step, hx] at h1
        | runFails => simp only [step] at h1; split at h1 <;> cases h1; exact hx
        | readEnds =>
          simp only [step] at h1
          split at h1
          · cases h1
          · split at h1 <;> split at h1 <;> cases h1 <;> exact hx
        | readUnsupported => simp only [step] at h1; split at h1 <;> cases h1; exact hx
    exact this as _ s hs hno rfl
  unfold Inv at h
  rw [hk] at h
  dsimp only at h
  rw [hsc] at h
  simp at h
  split at h <;> omega

/-- **C47 is false for server-sent events**: a client that goes away while the broadcaster disconnects it (for
deauthentication or overflow) makes both goroutines close the channel, and the second one panics. -/
theorem C47_sse_panic (b : Bool) :
    ∃ s, steps b { kind := .sse } [.broadcasterCloses, .clientGoes, .runSeesSendClosed, .readEnds] = some s ∧
      s.closes = 2 := by
  cases b <;> exact ⟨_, rfl, rfl⟩

/-- With HTTP/2 no race is needed: every client that the broadcaster disconnects has that effect. -/
theorem C47_sse_http2 :
    ∃ s, steps true { kind := .sse } [.broadcasterCloses, .runSeesSendClosed, .readEnds] = some s ∧
      s.closes = 2 ∧ s.clientGone = false := ⟨_, rfl, rfl, rfl⟩

/-! Both goroutines of a WebSocket end: the broadcaster disconnects it, and reading fails thereafter. -/
example : (steps false { kind := .webSocket } [.broadcasterCloses, .runSeesSendClosed, .clientGoes, .readEnds]).map
    (fun s => (s.closes, s.runDone, s.readDone)) = some (1, true, true) := by decide

end Quark.Transport
