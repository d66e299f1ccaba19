import Verif.Stop.Props

/-!
# Requests in flight when a daemon stops (C160), and the CI queue (C161, C162)
-/

namespace Quark.Stop

/-! ## C160: requests in flight -/

/-- Has the `Shutdown` of this part returned? -/
def past (s : State) (k : Nat) : Prop :=
  match s.phase with
  | .stopping j _ => k < j
  | .joining => True
  | .exited => True
  | _ => False

/-- Requests are numbered from zero, each is in flight once or answered; a part that was shut down before the deadline has nothing
left to do. -/
structure Inv (parts : List Kind) (s : State) : Prop where
  numbered : ∀ p ∈ s.inflight, p.1 < s.next ∧ parts[p.2]? = some .server
  known : ∀ id, id < s.next → (∃ k, (id, k) ∈ s.inflight) ∨ id ∈ s.answered
  answered : ∀ id ∈ s.answered, id < s.next ∧ ∀ k, (id, k) ∉ s.inflight
  started : s.phase = .starting 0 → s.worker = .scanning
  quiet : s.expired = false → ∀ k, past s k → ∀ p ∈ s.inflight, p.2 ≠ k
  done : s.expired = false → ∀ k, past s k → parts[k]? = some .ci → s.worker = .stopped
  stop : s.worker = .stopped → s.ciStop = true
  told : s.ciStop = true → s.phase ≠ .waiting ∧ ∀ m, s.phase ≠ .starting m
  part : PartOk parts s

theorem inv_init (parts : List Kind) : Inv parts {} where
  numbered := by simp
  known := by simp
  answered := by simp
  started := by simp
  quiet := by simp [past]
  done := by simp [past]
  stop := by simp
  told := by simp
  part := trivial

theorem running_iff {s : State} {id : Nat} : running s id = true ↔ ∃ k, (id, k) ∈ s.inflight := by
  simp [running]

theorem inv_step {parts : List Kind} (hne : parts ≠ []) {s s' : State} {a : Act} (hP : Inv parts s)
    (h : step parts s a = some s') : Inv parts s' := by
  have hpart := partOk_step hne hP.part h
  obtain ⟨hx, hc⟩ := step_cases h
  rcases hc with ⟨-, ⟨h1, rfl⟩ | ⟨-, rfl⟩⟩ | ⟨-, m, hm, hlt, rfl⟩ | ⟨-, hm, rfl⟩ | ⟨-, ⟨k, c, hm⟩, rfl⟩ |
    ⟨-, k, hm, ⟨hk, rfl⟩ | ⟨hk, rfl⟩⟩ | ⟨-, k, kd, hm, hk, hret, ⟨hl, rfl⟩ | ⟨hl, rfl⟩⟩ |
    ⟨-, hm, rfl⟩ | ⟨k, -, hk, hlis, rfl⟩ | ⟨id, -, h0, hin, hns, ⟨hq, rfl⟩ | ⟨hq, rfl⟩⟩ | ⟨id, -, hrun, hb, rfl⟩ |
    ⟨-, hw, h0, hph, rfl⟩ |
    ⟨-, hw, id, rest, hq, ⟨hb, rfl⟩ | ⟨b, bs, hb, rfl⟩⟩ | ⟨-, id, hw, rfl⟩ | ⟨-, hw, hst, rfl⟩
  · -- signal
    exact { hP with
            started := by simp
            quiet := by intro _ k hk; simp [past] at hk
            done := by intro _ k hk; simp [past] at hk
            told := by simp
            part := hpart }
  · exact hP
  · -- startPart
    exact { hP with
            started := by simp
            quiet := by intro _ k hk; simp [past] at hk
            done := by intro _ k hk; simp [past] at hk
            told := by intro hs; exact absurd hm ((hP.told hs).2 m)
            part := hpart }
  · exact { hP with
            started := by simp
            quiet := by intro _ k hk; simp [past] at hk
            done := by intro _ k hk; simp [past] at hk
            told := by intro hs; exact absurd hm ((hP.told hs).2 _)
            part := hpart }
  · exact { hP with
            quiet := by simp
            done := by simp
            part := hpart }
  · -- call ci
    exact { hP with
            started := by simp
            quiet := by
              intro he j hj
              exact hP.quiet he j (by simpa [past, hm] using hj)
            done := by
              intro he j hj
              exact hP.done he j (by simpa [past, hm] using hj)
            stop := by simp
            told := by simp
            part := hpart }
  · exact { hP with
            started := by simp
            quiet := by
              intro he j hj
              exact hP.quiet he j (by simpa [past, hm] using hj)
            done := by
              intro he j hj
              exact hP.done he j (by simpa [past, hm] using hj)
            told := by simp
            part := hpart }
  · -- ret, next
    exact { hP with
            started := by simp
            quiet := by
              intro he j hj p hp hpj
              have hj' : j < k + 1 := by simpa [past] using hj
              rcases Nat.lt_succ_iff_lt_or_eq.1 hj' with hlt | rfl
              · exact hP.quiet he j (by simpa [past, hm] using hlt) p hp hpj
              · have := (hP.numbered p hp).2
                rw [hpj, hk] at this
                cases this
                have he' : s.expired = false := he
                simp [mayReturn, he'] at hret
                exact hret _ _ hp hpj
            done := by
              intro he j hj hci
              have hj' : j < k + 1 := by simpa [past] using hj
              rcases Nat.lt_succ_iff_lt_or_eq.1 hj' with hlt | rfl
              · exact hP.done he j (by simpa [past, hm] using hlt) hci
              · rw [hk] at hci
                cases hci
                have he' : s.expired = false := he
                simpa [mayReturn, he'] using hret
            told := by simp
            part := hpart }
  · -- ret, last
    exact { hP with
            started := by simp
            quiet := by
              intro he j hj p hp hpj
              by_cases hlt : j < k
              · exact hP.quiet he j (by simpa [past, hm] using hlt) p hp hpj
              · have h1 := (hP.numbered p hp).2
                have h2 : p.2 < parts.length := by
                  by_contra hcon
                  rw [List.getElem?_eq_none (by omega)] at h1
                  cases h1
                have hjk : j = k := by omega
                subst hjk
                rw [hpj, hk] at h1
                cases h1
                have he' : s.expired = false := he
                simp [mayReturn, he'] at hret
                exact hret _ _ hp hpj
            done := by
              intro he j hj hci
              by_cases hlt : j < k
              · exact hP.done he j (by simpa [past, hm] using hlt) hci
              · have h2 : j < parts.length := by
                  by_contra hcon
                  rw [List.getElem?_eq_none (by omega)] at hci
                  cases hci
                have hjk : j = k := by omega
                subst hjk
                rw [hk] at hci
                cases hci
                have he' : s.expired = false := he
                simpa [mayReturn, he'] using hret
            told := by simp
            part := hpart }
  · -- join
    exact { hP with
            started := by simp
            quiet := by
              intro he j hj
              exact hP.quiet he j (by simp [past, hm])
            done := by
              intro he j hj
              exact hP.done he j (by simp [past, hm])
            told := by simp
            part := hpart }
  · -- accept
    refine { hP with
             numbered := ?_
             known := ?_
             answered := ?_
             quiet := ?_
             part := hpart }
    · intro p hp
      simp only [List.mem_append, List.mem_cons, List.not_mem_nil, or_false] at hp
      rcases hp with hp | rfl
      · have := hP.numbered p hp
        exact ⟨Nat.lt_succ_of_lt this.1, this.2⟩
      · exact ⟨Nat.lt_succ_self _, hk⟩
    · intro id hid
      rcases Nat.lt_succ_iff_lt_or_eq.1 hid with hlt | rfl
      · rcases hP.known id hlt with ⟨j, hj⟩ | hj
        · exact Or.inl ⟨j, List.mem_append_left _ hj⟩
        · exact Or.inr hj
      · exact Or.inl ⟨k, by simp⟩
    · intro id hid
      have := hP.answered id hid
      refine ⟨Nat.lt_succ_of_lt this.1, ?_⟩
      intro j hj
      simp only [List.mem_append, List.mem_cons, List.not_mem_nil, or_false, Prod.mk.injEq] at hj
      rcases hj with hj | hj
      · exact this.2 j hj
      · omega
    · intro he j hj p hp hpj
      simp only [List.mem_append, List.mem_cons, List.not_mem_nil, or_false] at hp
      rcases hp with hp | rfl
      · exact hP.quiet he j hj p hp hpj
      · dsimp only at hpj
        subst hpj
        cases hph : s.phase with
        | starting m => simp [past, hph] at hj
        | waiting => simp [past, hph] at hj
        | stopping i c =>
          simp only [past, hph] at hj
          cases c <;> simp [listening, hph] at hlis <;> omega
        | joining => simp [listening, hph] at hlis
        | exited => exact hx hph
  · exact { hP with part := hpart }
  · exact { hP with part := hpart }
  · -- answer
    refine { hP with
             numbered := ?_
             known := ?_
             answered := ?_
             quiet := ?_
             part := hpart }
    · intro p hp
      exact hP.numbered p (List.mem_of_mem_filter hp)
    · intro i hi
      rcases hP.known i hi with ⟨j, hj⟩ | hj
      · by_cases hii : i = id
        · exact Or.inr (by simp [hii])
        · exact Or.inl ⟨j, by simp [hj, hii]⟩
      · exact Or.inr (by simp [hj])
    · intro i hi
      simp only [List.mem_append, List.mem_cons, List.not_mem_nil, or_false] at hi
      rcases hi with hi | rfl
      · have := hP.answered i hi
        refine ⟨this.1, fun k hk => this.2 k (List.mem_of_mem_filter hk)⟩
      · obtain ⟨k, hk⟩ := running_iff.1 hrun
        refine ⟨(hP.numbered _ hk).1, ?_⟩
        intro j hj
        simp at hj
    · intro he j hj p hp
      exact hP.quiet he j hj p (List.mem_of_mem_filter hp)
  · -- scanned
    exact { hP with
            started := by intro h; exact absurd h hph
            done := by
              intro he j hj hci
              have := hP.done he j hj hci
              rw [hw] at this; cases this
            stop := by simp
            part := hpart }
  · exact { hP with
            started := by intro h; have := hP.started h; rw [hw] at this; cases this
            done := by
              intro he j hj hci
              have := hP.done he j hj hci
              rw [hw] at this; cases this
            stop := by simp
            part := hpart }
  · exact { hP with
            started := by intro h; have := hP.started h; rw [hw] at this; cases this
            done := by
              intro he j hj hci
              have := hP.done he j hj hci
              rw [hw] at this; cases this
            stop := by simp
            part := hpart }
  · exact { hP with
            started := by intro h; have := hP.started h; rw [hw] at this; cases this
            done := by
              intro he j hj hci
              have := hP.done he j hj hci
              rw [hw] at this; cases this
            stop := by simp
            part := hpart }
  · exact { hP with
            started := by intro h; have := hP.started h; rw [hw] at this; cases this
            done := by intro _ _ _ _; rfl
            stop := by intro _; exact hst
            part := hpart }

theorem inv_reach {parts : List Kind} (hne : parts ≠ []) {s : State} (h : Reachable parts s) : Inv parts s :=
  reachable_invariant (inv_init parts) (fun _ _ _ => inv_step hne) h

/-- A daemon that ends before the deadline has answered every request it ever accepted. -/
theorem no_request_dropped_partial {parts : List Kind} (hne : parts ≠ []) {s : State} (h : Reachable parts s)
    (hx : s.phase = .exited) (hd : s.expired = false) : s.inflight = [] ∧ ∀ id, id < s.next → id ∈ s.answered := by
  have hi := inv_reach hne h
  have hempty : s.inflight = [] := by
    cases hin : s.inflight with
    | nil => rfl
    | cons p l =>
      exact absurd rfl (hi.quiet hd p.2 (by simp [past, hx]) p (by simp [hin]))
  refine ⟨hempty, ?_⟩
  intro id hid
  rcases hi.known id hid with ⟨k, hk⟩ | hk
  · rw [hempty] at hk; simp at hk
  · exact hk

/-- The claim without the deadline: every request accepted has been answered when the daemon ends. It is false. -/
def AllAnswered (parts : List Kind) : Prop :=
  ∀ s : State, Reachable parts s → s.phase = .exited → ∀ id, id < s.next → id ∈ s.answered

/-- A CI run that takes longer than the deadline costs the requests of all servers, even though these were not being waited
for. -/
def busyGrader : List Act :=
  [.startPart, .startPart, .scanned, .startPart, .startPart, .ready, .accept 1, .send 0, .answer 0, .take, .accept 3,
    .signal, .call, .expire, .ret, .call, .ret, .call, .ret, .call, .ret, .join]

theorem all_answered_false : ¬ AllAnswered graderParts := by
  intro h
  exact absurd (h ((run graderParts {} busyGrader).getD {}) ⟨busyGrader, by decide +kernel⟩ (by decide +kernel) 1
    (by decide +kernel)) (by decide +kernel)

/-- One subscriber of the broadcaster, whose request does not end by itself, costs a message that is being delivered. -/
def subscribedBroadcaster : List Act :=
  [.startPart, .startPart, .ready, .accept 0, .signal, .call, .accept 1, .expire, .ret, .call, .ret, .join]

theorem all_answered_false_broadcaster : ¬ AllAnswered broadcasterParts := by
  intro h
  exact absurd (h ((run broadcasterParts {} subscribedBroadcaster).getD {}) ⟨subscribedBroadcaster, by decide +kernel⟩
    (by decide +kernel) 1 (by decide +kernel)) (by decide +kernel)

/-- No server accepts a request once its `Shutdown` has been called, and until then every one does, signal or not. -/
theorem accepts_iff {parts : List Kind} {s : State} {k : Nat} (hk : parts[k]? = some .server) :
    (step parts s (.accept k)).isSome ↔
      match s.phase with
      | .starting m => k < m
      | .waiting => True
      | .stopping j called => j < k ∨ (j = k ∧ called = false)
      | _ => False := by
  cases hp : s.phase with
  | starting m => simp [step, hp, hk, listening]
  | waiting => simp [step, hp, hk, listening]
  | stopping j c => cases c <;> simp [step, hp, hk, listening]; omega
  | joining => simp [step, hp, hk, listening]
  | exited => simp [step, hp]

/-- Requests that are answered were accepted, and no request is answered twice or after it was answered is in flight. -/
theorem answered_once {parts : List Kind} (hne : parts ≠ []) {s : State} (h : Reachable parts s) :
    ∀ id ∈ s.answered, id < s.next ∧ running s id = false := by
  intro id hid
  have := (inv_reach hne h).answered id hid
  refine ⟨this.1, ?_⟩
  cases hr : running s id with
  | false => rfl
  | true =>
    obtain ⟨k, hk⟩ := running_iff.1 hr
    exact absurd hk (this.2 k)

/-- Without a request in flight and with the CI worker idle, a daemon told to stop ends without needing the deadline. -/
example : ∃ s, run graderParts {} [.startPart, .startPart, .scanned, .startPart, .startPart, .ready, .accept 2, .answer 0, .signal,
    .call, .quit, .ret, .call, .ret, .call, .ret, .call, .ret, .join] = some s ∧ s.phase = .exited ∧ s.expired = false ∧
    s.next = 1 ∧ s.answered = [0] :=
  ⟨_, rfl, by decide +kernel⟩

end Quark.Stop
