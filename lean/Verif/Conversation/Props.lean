import Verif.Conversation.Model
import Mathlib.Data.List.Induction

/-!
# What the client of an ephemeral run is told (C156)
-/

namespace Quark.Conversation

variable {ι : Type} {R : Literal.Runtime} {T : Literal.Tools ι} {r : Request}

/-! ## Specification -/

/-- What a part of the answer is called. -/
def Part.label : Part → String
  | .status t => t
  | .file n _ => n
  | .refused .. => "details.json"

/-- The parts there can be, in the order in which they come. -/
def order : List String := ["waiting", "queueing", "running", "logs.txt.gz", "files.zip", "details.json"]

/-- The run has been accepted: the head of the answer has been sent and carries this token. -/
def Accepted (s : State) (token : String) : Prop := s.head = some (.parts (some token))

/-- The order of the parts is kept, and the first two are never left out. -/
structure WellTold (parts : List Part) : Prop where
  ordered : (parts.map Part.label).Sublist order
  first : parts ≠ [] → ∃ rest, parts = .status "waiting" :: rest
  second : 2 ≤ parts.length → ∃ rest, parts = .status "waiting" :: .status "queueing" :: rest

/-! ## Proof -/

/-- What has been written when the files in `pre` have been dealt with. -/
def Told (s : State) (pre : List String) : Prop :=
  ∃ mid files, s.sent = [.status "waiting", .status "queueing"] ++ mid ++ files ∧
    (mid = [] ∨ mid = [.status "running"]) ∧ (files.map Part.label).Sublist pre ∧
    (∀ p ∈ files, ∃ n b, p = .file n b)

/-- What holds where the handler is. -/
def At (s : State) : Pc → Prop
  | .start => s.head = none ∧ s.sent = [] ∧ s.queued = false ∧ s.dir = none ∧ s.ended = false ∧ s.kept = false
  | .input => s.head = none ∧ s.sent = [] ∧ s.queued = false ∧ s.dir = none ∧ s.ended = false ∧ s.kept = false
  | .naming => s.head = none ∧ s.sent = [] ∧ s.queued = false ∧ s.dir = none ∧ s.ended = false ∧ s.kept = false
  | .greet _ => s.head = none ∧ s.sent = [] ∧ s.queued = false ∧ s.dir = some [] ∧ s.ended = false ∧ s.kept = false
  | .enqueue => (∃ t, Accepted s t) ∧ s.sent = [.status "waiting"] ∧ s.queued = false ∧ s.dir = some [] ∧
      s.ended = false ∧ s.kept = false
  | .tell => (∃ t, Accepted s t) ∧ s.sent = [.status "waiting"] ∧ s.queued = true ∧ s.dir.isSome ∧
      s.ended = false ∧ s.kept = false
  | .choose => (∃ t, Accepted s t) ∧ s.sent = [.status "waiting", .status "queueing"] ∧ s.queued = true ∧ s.dir.isSome ∧
      s.ended = false ∧ s.kept = false
  | .wait => (∃ t, Accepted s t) ∧ s.queued = true ∧ Told s [] ∧ s.dir.isSome ∧ s.ended = false ∧ s.kept = false
  | .send rest => (∃ t, Accepted s t) ∧ s.queued = true ∧ s.ready = true ∧ (∃ pre, filenames = pre ++ rest ∧ Told s pre) ∧
      s.dir.isSome ∧ s.ended = false ∧ s.kept = false
  | .save => (∃ t, Accepted s t) ∧ s.queued = true ∧ s.ready = true ∧ Told s filenames ∧ s.dir.isSome ∧
      s.ended = false ∧ s.kept = false
  | .commit => (∃ t, Accepted s t) ∧ s.queued = true ∧ s.ready = true ∧ Told s filenames ∧ s.dir.isSome ∧
      s.ended = false ∧ s.kept = false
  | .done =>
    (s.queued = false ∧ s.dir = none ∧ s.kept = false ∧
      ((∃ c, s.head = some (.plain c) ∧ s.sent = [] ∧ s.ended = false) ∨
       (s.head = some .dropped ∧ s.sent = [] ∧ s.ended = false) ∨
       (s.head = some (.parts none) ∧ s.ended = true ∧ ∃ m e, s.sent = [.refused "CE" 0 m e]))) ∨
    ((∃ t, Accepted s t) ∧ s.queued = true ∧ s.ready = true ∧ Told s filenames ∧ s.ended = true ∧
      (s.kept = true → s.dir.isSome))

structure Inv (s : State) : Prop where
  prefix_ : s.heard <+: s.sent
  online : s.online = true → s.heard = s.sent
  queued : s.picked = true → s.queued = true
  picked : s.closed = true → s.picked = true
  closed : s.ready = true → s.closed = true
  said : .status "running" ∈ s.sent → s.picked = true
  at_ : At s s.pc

theorem inv_start : Inv {} := by
  refine ⟨List.nil_prefix, fun _ => rfl, ?_, ?_, ?_, ?_, ?_⟩ <;> simp [At]

theorem say_prefix {s : State} {p : Part} (h : s.heard <+: s.sent) (ho : s.online = true → s.heard = s.sent) :
    (say s p).heard <+: (say s p).sent := by
  unfold say
  by_cases hn : s.online = true
  · simp [hn, ho hn]
  · simp only [hn, Bool.false_eq_true, if_false]
    exact h.trans (List.prefix_append _ _)

theorem say_online {s : State} {p : Part} (ho : s.online = true → s.heard = s.sent) :
    (say s p).online = true → (say s p).heard = (say s p).sent := by
  intro hn
  have hn' : s.online = true := hn
  simp [say, hn', ho hn']

/-- Saying something keeps the invariant if it is true and in its place. -/
theorem Inv.say {s s' : State} {p : Part} (hi : Inv s) (e1 : s'.heard = s.heard) (e2 : s'.sent = s.sent)
    (e3 : s'.online = s.online) (e4 : s'.queued = s.queued) (e5 : s'.picked = s.picked) (e6 : s'.closed = s.closed)
    (e7 : s'.ready = s.ready) (hr : p = .status "running" → s.picked = true)
    (ha : At (Conversation.say s' p) s'.pc) : Inv (Conversation.say s' p) := by
  have h1 : s'.heard <+: s'.sent := by rw [e1, e2]; exact hi.prefix_
  have h2 : s'.online = true → s'.heard = s'.sent := by rw [e1, e2, e3]; exact hi.online
  refine ⟨say_prefix h1 h2, say_online h2, ?_, ?_, ?_, ?_, ha⟩
  · show s'.picked = true → s'.queued = true
    rw [e4, e5]; exact hi.queued
  · show s'.closed = true → s'.picked = true
    rw [e6, e5]; exact hi.picked
  · show s'.ready = true → s'.closed = true
    rw [e6, e7]; exact hi.closed
  · intro hm
    show s'.picked = true
    rw [e5]
    have hm : Part.status "running" ∈ s'.sent ++ [p] := hm
    rcases List.mem_append.1 hm with hm | hm
    · rw [e2] at hm; exact hi.said hm
    · exact hr (List.mem_singleton.1 hm).symm

theorem told_file {s : State} {pre : List String} {f : String} {b : Bytes} (h : Told s pre) :
    Told (say s (.file f b)) (pre ++ [f]) := by
  obtain ⟨mid, files, e, hm, hs, hf⟩ := h
  refine ⟨mid, files ++ [.file f b], ?_, hm, ?_, ?_⟩
  · show s.sent ++ [_] = _
    rw [e]; simp
  · rw [List.map_append]
    exact hs.append (List.Sublist.refl _)
  · intro p hp
    rcases List.mem_append.1 hp with hp | hp
    · exact hf p hp
    · exact ⟨f, b, by simpa using hp⟩

theorem told_skip {s s' : State} {pre : List String} {f : String} (h : Told s pre) (e : s'.sent = s.sent) :
    Told s' (pre ++ [f]) := by
  obtain ⟨mid, files, e', hm, hs, hf⟩ := h
  exact ⟨mid, files, e.trans e', hm, hs.trans (List.sublist_append_left _ _), hf⟩

theorem inv_front {s : State} (hi : Inv s) (hp : s.pc = .start) : Inv (front R T r s) := by
  have ha := hi.at_
  rw [hp] at ha
  simp only [At] at ha
  obtain ⟨h1, h2, h3, h4, h5, h6⟩ := ha
  have hgive : ∀ h, (h = .dropped ∨ ∃ c, h = .plain c) → Inv { s with pc := .done, head := some h } := by
    intro h hh
    refine ⟨hi.prefix_, hi.online, hi.queued, hi.picked, hi.closed, hi.said, Or.inl ⟨h3, h4, h6, ?_⟩⟩
    rcases hh with rfl | ⟨c, rfl⟩
    · exact Or.inr (Or.inl ⟨rfl, h2, h5⟩)
    · exact Or.inl ⟨c, rfl, h2, h5⟩
  unfold front
  split
  · exact hgive _ (Or.inr ⟨_, rfl⟩)
  split
  · exact hgive _ (Or.inr ⟨_, rfl⟩)
  split
  · exact hgive _ (Or.inr ⟨_, rfl⟩)
  split
  · exact hgive _ (Or.inl rfl)
  split
  · exact hgive _ (Or.inl rfl)
  rename_i m _
  split
  · exact hgive _ (Or.inl rfl)
  · rename_i e _
    have hb := hi.say (s' := { s with head := some (.parts none), pc := .done, ended := true })
      (p := .refused "CE" 0 m e) rfl rfl rfl rfl rfl rfl rfl (by simp)
      (Or.inl ⟨h3, h4, h6, Or.inr (Or.inr ⟨rfl, rfl, m, e, by simp [Conversation.say, h2]⟩)⟩)
    exact hb
  · exact ⟨hi.prefix_, hi.online, hi.queued, hi.picked, hi.closed, hi.said, ⟨h1, h2, h3, h4, h5, h6⟩⟩

theorem inv_handle {s s' : State} {c : Choice} (hi : Inv s) (h : handle R T r s c = some s') : Inv s' := by
  have ha := hi.at_
  cases hp : s.pc with
  | start =>
    unfold handle at h; rw [hp] at h; dsimp only at h
    cases h; exact inv_front hi hp
  | input =>
    unfold handle at h; rw [hp] at h; dsimp only at h
    rw [hp] at ha
    simp only [At] at ha
    obtain ⟨h1, h2, h3, h4, h5, h6⟩ := ha
    cases c <;> simp only [reduceCtorEq] at h <;> cases h
    · exact ⟨hi.prefix_, hi.online, hi.queued, hi.picked, hi.closed, hi.said, ⟨h1, h2, h3, h4, h5, h6⟩⟩
    · exact ⟨hi.prefix_, hi.online, hi.queued, hi.picked, hi.closed, hi.said,
        Or.inl ⟨h3, h4, h6, Or.inl ⟨_, rfl, h2, h5⟩⟩⟩
  | naming =>
    unfold handle at h; rw [hp] at h; dsimp only at h
    rw [hp] at ha
    simp only [At] at ha
    obtain ⟨h1, h2, h3, h4, h5, h6⟩ := ha
    cases c <;> simp only [reduceCtorEq] at h <;> cases h
    · exact ⟨hi.prefix_, hi.online, hi.queued, hi.picked, hi.closed, hi.said,
        Or.inl ⟨h3, h4, h6, Or.inl ⟨_, rfl, h2, h5⟩⟩⟩
    · exact ⟨hi.prefix_, hi.online, hi.queued, hi.picked, hi.closed, hi.said, ⟨h1, h2, h3, rfl, h5, h6⟩⟩
  | greet t =>
    unfold handle at h; rw [hp] at h; dsimp only at h
    rw [hp] at ha
    simp only [At] at ha
    obtain ⟨h1, h2, h3, h4, h5, h6⟩ := ha
    cases h
    exact hi.say (s' := { s with pc := .enqueue, head := some (.parts (some t)) }) rfl rfl rfl rfl rfl rfl rfl (by simp)
      ⟨⟨t, rfl⟩, by simp [Conversation.say, h2], h3, h4, h5, h6⟩
  | enqueue =>
    unfold handle at h; rw [hp] at h; dsimp only at h
    rw [hp] at ha
    simp only [At] at ha
    obtain ⟨h1, h2, h3, h4, h5, h6⟩ := ha
    cases h
    exact ⟨hi.prefix_, hi.online, fun _ => rfl, hi.picked, hi.closed, hi.said, ⟨h1, h2, rfl, by simp [h4], h5, h6⟩⟩
  | tell =>
    unfold handle at h; rw [hp] at h; dsimp only at h
    rw [hp] at ha
    simp only [At] at ha
    obtain ⟨h1, h2, h3, h4, h5, h6⟩ := ha
    cases h
    exact hi.say (s' := { s with pc := .choose }) rfl rfl rfl rfl rfl rfl rfl (by simp)
      ⟨h1, by simp [Conversation.say, h2], h3, h4, h5, h6⟩
  | choose =>
    unfold handle at h; rw [hp] at h; dsimp only at h
    rw [hp] at ha
    simp only [At] at ha
    obtain ⟨h1, h2, h3, h4, h5, h6⟩ := ha
    cases c <;> simp only [reduceCtorEq] at h
    · split at h
      · cases h
        rename_i hpk
        exact hi.say (s' := { s with pc := .wait }) rfl rfl rfl rfl rfl rfl rfl (fun _ => hpk)
          ⟨h1, h3, ⟨[.status "running"], [], by simp [Conversation.say, h2], Or.inr rfl, by simp, by simp⟩, h4, h5, h6⟩
      · cases h
    · split at h
      · cases h
        exact ⟨hi.prefix_, hi.online, hi.queued, hi.picked, hi.closed, hi.said,
          ⟨h1, h3, ⟨[], [], by simp [h2], Or.inl rfl, by simp, by simp⟩, h4, h5, h6⟩⟩
      · cases h
  | wait =>
    unfold handle at h; rw [hp] at h; dsimp only at h
    rw [hp] at ha
    simp only [At] at ha
    obtain ⟨h1, h2, h3, h4, h5, h6⟩ := ha
    split at h
    · cases h
      rename_i hr
      exact ⟨hi.prefix_, hi.online, hi.queued, hi.picked, hi.closed, hi.said,
        ⟨h1, h2, hr, ⟨[], rfl, h3⟩, h4, h5, h6⟩⟩
    · cases h
  | send rest =>
    rw [hp] at ha
    simp only [At] at ha
    obtain ⟨h1, h2, h3, ⟨pre, h4, h7⟩, h8, h5, h6⟩ := ha
    cases rest with
    | nil =>
      unfold handle at h; rw [hp] at h; dsimp only at h
      cases h
      rw [List.append_nil] at h4
      exact ⟨hi.prefix_, hi.online, hi.queued, hi.picked, hi.closed, hi.said,
        ⟨h1, h2, h3, by rw [h4]; exact h7, h8, h5, h6⟩⟩
    | cons f rest =>
      unfold handle at h; rw [hp] at h; dsimp only at h
      have h4' : filenames = (pre ++ [f]) ++ rest := by rw [h4]; simp
      have hskip : Inv { s with pc := .send rest } :=
        ⟨hi.prefix_, hi.online, hi.queued, hi.picked, hi.closed, hi.said,
          ⟨h1, h2, h3, ⟨pre ++ [f], h4', told_skip h7 rfl⟩, h8, h5, h6⟩⟩
      have hsay : ∀ b, Inv (Conversation.say { s with pc := .send rest } (.file f b)) := fun b =>
        hi.say (s' := { s with pc := .send rest }) rfl rfl rfl rfl rfl rfl rfl (by simp)
          ⟨h1, h2, h3, ⟨pre ++ [f], h4', told_file (s := { s with pc := .send rest }) h7⟩, h8, h5, h6⟩
      split at h
      · cases h; exact hskip
      · cases c <;> simp only [reduceCtorEq] at h <;> cases h
        · exact hsay _
        · exact hskip
        · exact hsay _
  | save =>
    unfold handle at h; rw [hp] at h; dsimp only at h
    rw [hp] at ha
    simp only [At] at ha
    obtain ⟨h1, h2, h3, h4, h7, h5, h6⟩ := ha
    cases c <;> simp only [reduceCtorEq] at h <;> cases h
    · exact ⟨hi.prefix_, hi.online, hi.queued, hi.picked, hi.closed, hi.said,
        ⟨h1, h2, h3, h4, by simp [h7], h5, h6⟩⟩
    · exact ⟨hi.prefix_, hi.online, hi.queued, hi.picked, hi.closed, hi.said,
        Or.inr ⟨h1, h2, h3, h4, rfl, by simp [h6]⟩⟩
    · exact ⟨hi.prefix_, hi.online, hi.queued, hi.picked, hi.closed, hi.said,
        Or.inr ⟨h1, h2, h3, h4, rfl, fun _ => h7⟩⟩
  | commit =>
    unfold handle at h; rw [hp] at h; dsimp only at h
    rw [hp] at ha
    simp only [At] at ha
    obtain ⟨h1, h2, h3, h4, h7, h5, h6⟩ := ha
    cases c <;> simp only [reduceCtorEq] at h <;> cases h
    · exact ⟨hi.prefix_, hi.online, hi.queued, hi.picked, hi.closed, hi.said,
        Or.inr ⟨h1, h2, h3, h4, rfl, fun _ => h7⟩⟩
    · exact ⟨hi.prefix_, hi.online, hi.queued, hi.picked, hi.closed, hi.said,
        Or.inr ⟨h1, h2, h3, h4, rfl, fun _ => h7⟩⟩
  | done => unfold handle at h; rw [hp] at h; cases h

/-- `At` looks only at some fields, and a run that changes its directory keeps it. -/
theorem at_env {s s' : State} (ha : At s s.pc) (hq : s.queued = true) (e0 : s'.pc = s.pc) (e1 : s'.head = s.head)
    (e2 : s'.sent = s.sent) (e3 : s'.queued = s.queued) (e4 : s'.ended = s.ended) (e5 : s'.kept = s.kept)
    (e6 : s.ready = true → s'.ready = true) (e7 : s.dir.isSome → s'.dir.isSome) : At s' s'.pc := by
  have told : ∀ pre, Told s pre → Told s' pre := by
    rintro pre ⟨mid, files, h⟩
    exact ⟨mid, files, by rw [e2]; exact h.1, h.2⟩
  rw [e0]
  cases hp : s.pc <;> rw [hp] at ha <;> simp only [At, Accepted] at ha ⊢
  case start => simp_all
  case input => simp_all
  case naming => simp_all
  case greet => simp_all
  case enqueue => simp_all
  case tell => rw [e1, e2, e3, e4, e5]; exact ⟨ha.1, ha.2.1, ha.2.2.1, e7 ha.2.2.2.1, ha.2.2.2.2⟩
  case choose => rw [e1, e2, e3, e4, e5]; exact ⟨ha.1, ha.2.1, ha.2.2.1, e7 ha.2.2.2.1, ha.2.2.2.2⟩
  case wait => rw [e1, e3, e4, e5]; exact ⟨ha.1, ha.2.1, told _ ha.2.2.1, e7 ha.2.2.2.1, ha.2.2.2.2⟩
  case send =>
    rw [e1, e3, e4, e5]
    obtain ⟨h1, h2, h3, ⟨pre, h4, h5⟩, h6, h7⟩ := ha
    exact ⟨h1, h2, e6 h3, ⟨pre, h4, told _ h5⟩, e7 h6, h7⟩
  case save => rw [e1, e3, e4, e5]; exact ⟨ha.1, ha.2.1, e6 ha.2.2.1, told _ ha.2.2.2.1, e7 ha.2.2.2.2.1, ha.2.2.2.2.2⟩
  case commit => rw [e1, e3, e4, e5]; exact ⟨ha.1, ha.2.1, e6 ha.2.2.1, told _ ha.2.2.2.1, e7 ha.2.2.2.2.1, ha.2.2.2.2.2⟩
  case done =>
    rw [e1, e3, e4, e5]
    rcases ha with ha | ⟨h1, h2, h3, h4, h5, h6⟩
    · rw [hq] at ha; exact absurd ha.1 (by simp)
    · exact Or.inr ⟨h1, h2, e6 h3, told _ h4, h5, fun hk => e7 (h6 hk)⟩

theorem inv_step {s s' : State} {a : Act} (hi : Inv s) (h : step R T r s a = some s') : Inv s' := by
  cases a with
  | handler c => exact inv_handle hi h
  | pickUp =>
    simp only [step] at h
    split at h
    · cases h
      rename_i hq
      exact ⟨hi.prefix_, hi.online, fun _ => hq, fun _ => rfl, hi.closed, fun _ => rfl,
        at_env hi.at_ hq rfl rfl rfl rfl rfl rfl id id⟩
    · cases h
  | clear =>
    simp only [step] at h
    split at h
    · cases h
      rename_i hc
      exact ⟨hi.prefix_, hi.online, hi.queued, hi.picked, hi.closed, hi.said,
        at_env hi.at_ (hi.queued hc) rfl rfl rfl rfl rfl rfl id (fun _ => rfl)⟩
    · cases h
  | upload n b =>
    simp only [step] at h
    split at h
    · cases h
      rename_i hc
      exact ⟨hi.prefix_, hi.online, hi.queued, hi.picked, hi.closed, hi.said,
        at_env hi.at_ (hi.queued hc.1) rfl rfl rfl rfl rfl rfl id (by simp)⟩
    · cases h
  | close good d l t =>
    simp only [step] at h
    split at h
    · cases h
      rename_i hc
      refine ⟨hi.prefix_, hi.online, hi.queued, fun _ => hc.1, fun _ => rfl, hi.said, ?_⟩
      exact at_env hi.at_ (hi.queued hc.1) rfl rfl rfl rfl rfl rfl (fun hr => absurd (hi.closed hr) hc.2) (fun _ => rfl)
    · cases h
  | hangUp =>
    simp only [step] at h
    cases h
    refine ⟨hi.prefix_, by simp, hi.queued, hi.picked, hi.closed, hi.said, ?_⟩
    have := hi.at_
    cases hp : s.pc <;> rw [hp] at this <;> simpa only [At, Told, Accepted] using this

theorem inv_run {s s' : State} {acts : List Act} (hi : Inv s) (h : run R T r s acts = some s') : Inv s' := by
  induction acts generalizing s with
  | nil => simp only [run] at h; cases h; exact hi
  | cons a as ih =>
    simp only [run] at h
    cases hs : step R T r s a with
    | none => rw [hs] at h; cases h
    | some s1 => rw [hs] at h; exact ih (inv_step hi hs) h

theorem inv_from {s : State} {acts : List Act} (h : from0 R T r acts = some s) : Inv s := inv_run inv_start h

theorem Told.well {s : State} {pre post : List String} (h : Told s pre) (he : filenames = pre ++ post) :
    WellTold s.sent := by
  obtain ⟨mid, files, e, hm, hs, hf⟩ := h
  rw [e]
  refine ⟨?_, fun _ => ⟨_, rfl⟩, fun _ => ⟨_, rfl⟩⟩
  have hs' : (files.map Part.label).Sublist filenames := by
    rw [he]; exact hs.trans (List.sublist_append_left _ _)
  show ("waiting" :: "queueing" :: _).Sublist ("waiting" :: "queueing" :: (["running"] ++ filenames))
  refine List.Sublist.cons_cons _ (List.Sublist.cons_cons _ ?_)
  show (List.map Part.label (mid ++ files)).Sublist _
  rw [List.map_append]
  refine List.Sublist.append ?_ hs'
  rcases hm with rfl | rfl
  · simp
  · exact List.Sublist.refl _

theorem WellTold.prefix {l l' : List Part} (h : WellTold l) (hp : l' <+: l) : WellTold l' := by
  obtain ⟨m, rfl⟩ := hp
  refine ⟨?_, ?_, ?_⟩
  · refine List.Sublist.trans ?_ h.ordered
    rw [List.map_append]; exact List.sublist_append_left _ _
  · intro hne
    obtain ⟨rest, e⟩ := h.first (by simp [hne])
    cases l' with
    | nil => exact absurd rfl hne
    | cons p l' => simp only [List.cons_append, List.cons.injEq] at e; exact ⟨l', by rw [e.1]⟩
  · intro hl
    obtain ⟨rest, e⟩ := h.second (by simp; omega)
    match l', hl with
    | p :: q :: l', _ =>
      simp only [List.cons_append, List.cons.injEq] at e
      exact ⟨l', by rw [e.1, e.2.1]⟩

/-- What the handler of an accepted run has written. -/
theorem Inv.wellTold {s : State} (hi : Inv s) {t : String} (h : Accepted s t) : WellTold s.sent := by
  have ha := hi.at_
  unfold Accepted at h
  cases hp : s.pc <;> rw [hp] at ha <;> simp only [At] at ha
  case start => rw [ha.1] at h; cases h
  case input => rw [ha.1] at h; cases h
  case naming => rw [ha.1] at h; cases h
  case greet => rw [ha.1] at h; cases h
  case enqueue => rw [ha.2.1]; exact ⟨by decide, fun _ => ⟨_, rfl⟩, by simp⟩
  case tell => rw [ha.2.1]; exact ⟨by decide, fun _ => ⟨_, rfl⟩, by simp⟩
  case choose => rw [ha.2.1]; exact ⟨by decide, fun _ => ⟨_, rfl⟩, fun _ => ⟨_, rfl⟩⟩
  case wait => exact ha.2.2.1.well (post := filenames) rfl
  case send => obtain ⟨_, _, _, ⟨pre, h4, h5⟩, _⟩ := ha; exact h5.well h4
  case save => exact ha.2.2.2.1.well (post := []) (by simp)
  case commit => exact ha.2.2.2.1.well (post := []) (by simp)
  case done =>
    rcases ha with ⟨_, _, _, ⟨c, e, _⟩ | ⟨e, _⟩ | ⟨e, _⟩⟩ | ha
    · rw [e] at h; cases h
    · rw [e] at h; cases h
    · rw [e] at h; cases h
    · exact ha.2.2.2.1.well (post := []) (by simp)

/-- How far an accepted run is. -/
theorem Inv.accepted {s : State} (hi : Inv s) {t : String} (h : Accepted s t) :
    (s.sent = [.status "waiting"] ∧ s.ended = false) ∨ (s.queued = true ∧ Told s [] ∧ s.ended = false) ∨
    (s.queued = true ∧ s.ready = true) := by
  have ha := hi.at_
  unfold Accepted at h
  cases hp : s.pc <;> rw [hp] at ha <;> simp only [At] at ha
  case start => rw [ha.1] at h; cases h
  case input => rw [ha.1] at h; cases h
  case naming => rw [ha.1] at h; cases h
  case greet => rw [ha.1] at h; cases h
  case enqueue => exact Or.inl ⟨ha.2.1, ha.2.2.2.2.1⟩
  case tell => exact Or.inl ⟨ha.2.1, ha.2.2.2.2.1⟩
  case choose =>
    exact Or.inr (Or.inl ⟨ha.2.2.1, ⟨[], [], by simp [ha.2.1], Or.inl rfl, by simp, by simp⟩, ha.2.2.2.2.1⟩)
  case wait => exact Or.inr (Or.inl ⟨ha.2.1, ha.2.2.1, ha.2.2.2.2.1⟩)
  case send => exact Or.inr (Or.inr ⟨ha.2.1, ha.2.2.1⟩)
  case save => exact Or.inr (Or.inr ⟨ha.2.1, ha.2.2.1⟩)
  case commit => exact Or.inr (Or.inr ⟨ha.2.1, ha.2.2.1⟩)
  case done =>
    rcases ha with ⟨_, _, _, ⟨c, e, _⟩ | ⟨e, _⟩ | ⟨e, _⟩⟩ | ha
    · rw [e] at h; cases h
    · rw [e] at h; cases h
    · rw [e] at h; cases h
    · exact Or.inr (Or.inr ⟨ha.2.1, ha.2.2.1⟩)

/-! ## C156 -/

/-- C156, the order: whatever happens, the parts an accepted client has been sent, and those that reached it, come in the
one order, none twice, and start with "waiting" and "queueing". -/
theorem parts_in_order {acts : List Act} {s : State} {t : String} (h : from0 R T r acts = some s) (ha : Accepted s t) :
    WellTold s.sent ∧ WellTold s.heard ∧ s.heard <+: s.sent ∧ (s.online = true → s.heard = s.sent) := by
  have hi := inv_from h
  exact ⟨hi.wellTold ha, (hi.wellTold ha).prefix hi.prefix_, hi.prefix_, hi.online⟩

/-- C156, the truth: "queueing" is said only when the run is in the queue, "running" only when a runner has been given it,
and files are sent only when the run is over; and the answer is ended only then. -/
theorem said_only_when_so {acts : List Act} {s : State} {t : String} (h : from0 R T r acts = some s) (ha : Accepted s t) :
    (.status "queueing" ∈ s.sent → s.queued = true) ∧ (.status "running" ∈ s.sent → s.picked = true) ∧
    (∀ n b, .file n b ∈ s.sent → s.ready = true) ∧ (s.ended = true → s.ready = true) := by
  have hi := inv_from h
  rcases hi.accepted ha with ⟨e, he⟩ | ⟨hq, ht, he⟩ | ⟨hq, hr⟩
  · rw [e, he]; exact ⟨by simp, fun hm => by simp at hm, fun n b hm => by simp at hm, by simp⟩
  · refine ⟨fun _ => hq, hi.said, fun n b hm => ?_, by simp [he]⟩
    obtain ⟨mid, files, e, hmid, hs, hf⟩ := ht
    simp only [List.sublist_nil, List.map_eq_nil_iff] at hs
    subst hs
    rw [e] at hm
    rcases hmid with rfl | rfl <;> simp at hm
  · exact ⟨fun _ => hq, hi.said, fun _ _ _ => hr, fun _ => hr⟩

/-! ### Executions -/

theorem run_append {s : State} {as bs : List Act} : run R T r s (as ++ bs) = (run R T r s as).bind (run R T r · bs) := by
  induction as generalizing s with
  | nil => rfl
  | cons a as ih =>
    simp only [List.cons_append, run]
    cases step R T r s a with
    | none => rfl
    | some s1 => exact ih

theorem from_snoc {acts : List Act} {a : Act} {s : State} (h : from0 R T r (acts ++ [a]) = some s) :
    ∃ s0, from0 R T r acts = some s0 ∧ step R T r s0 a = some s := by
  unfold from0 at h
  rw [run_append] at h
  cases hs : run R T r {} acts with
  | none => rw [hs] at h; cases h
  | some s0 =>
    rw [hs] at h
    simp only [Option.bind_some, run] at h
    cases hs1 : step R T r s0 a with
    | none => rw [hs1] at h; cases h
    | some s1 => rw [hs1] at h; cases h; exact ⟨s0, hs, hs1⟩

/-- What a step adds to what has been sent. -/
theorem sent_step {s s' : State} {a : Act} (h : step R T r s a = some s') :
    s'.sent = s.sent ∨ (∃ t, s'.sent = s.sent ++ [.status t]) ∨
      (s.pc = .start ∧ ∃ m e, s'.sent = s.sent ++ [.refused "CE" 0 m e]) ∨
      ∃ f rest b c, s.pc = .send (f :: rest) ∧ s.dir.bind (look · f) = some b ∧ a = .handler c ∧
        ((c = .ok ∧ s'.sent = s.sent ++ [.file f b]) ∨ ∃ n, c = .cut n ∧ s'.sent = s.sent ++ [.file f (b.take n)]) := by
  cases a with
  | pickUp => simp only [step] at h; split at h <;> cases h; exact Or.inl rfl
  | clear => simp only [step] at h; split at h <;> cases h; exact Or.inl rfl
  | upload => simp only [step] at h; split at h <;> cases h; exact Or.inl rfl
  | close => simp only [step] at h; split at h <;> cases h; exact Or.inl rfl
  | hangUp => simp only [step] at h; cases h; exact Or.inl rfl
  | handler c =>
    simp only [step] at h
    unfold handle at h
    cases hp : s.pc <;> rw [hp] at h <;> (try dsimp only at h)
    case start =>
      cases h
      unfold front
      split; · exact Or.inl rfl
      split; · exact Or.inl rfl
      split; · exact Or.inl rfl
      split; · exact Or.inl rfl
      split; · exact Or.inl rfl
      split; · exact Or.inl rfl
      · exact Or.inr (Or.inr (Or.inl ⟨rfl, _, _, rfl⟩))
      · exact Or.inl rfl
    case greet => cases h; exact Or.inr (Or.inl ⟨_, rfl⟩)
    case tell => cases h; exact Or.inr (Or.inl ⟨_, rfl⟩)
    case choose =>
      cases c <;> simp only [reduceCtorEq] at h <;> split at h <;> cases h
      · exact Or.inr (Or.inl ⟨_, rfl⟩)
      · exact Or.inl rfl
    case send l =>
      cases l with
      | nil => cases h; exact Or.inl rfl
      | cons f rest =>
        dsimp only at h
        split at h
        · cases h; exact Or.inl rfl
        · rename_i b hb
          cases c <;> simp only [reduceCtorEq] at h <;> cases h
          · exact Or.inr (Or.inr (Or.inr ⟨f, rest, b, _, rfl, hb, rfl, Or.inl ⟨rfl, rfl⟩⟩))
          · exact Or.inl rfl
          · exact Or.inr (Or.inr (Or.inr ⟨f, rest, b, _, rfl, hb, rfl, Or.inr ⟨_, rfl, rfl⟩⟩))
    case done => cases h
    all_goals
      first
      | (cases h; exact Or.inl rfl)
      | (split at h <;> cases h <;> exact Or.inl rfl)

/-- A file that has been sent was, some time after the run was over, in the directory of the run, and what was sent is what
it held then, or the beginning of it. -/
theorem files_as_they_were {acts : List Act} {s : State} {n : String} {b : Bytes} (h : from0 R T r acts = some s)
    (hm : .file n b ∈ s.sent) :
    ∃ before after s0 d whole, acts = before ++ after ∧ from0 R T r before = some s0 ∧ s0.ready = true ∧
      s0.dir = some d ∧ look d n = some whole ∧ b <+: whole ∧
      ((∀ k, .handler (.cut k) ∉ acts) → b = whole) := by
  induction acts using List.reverseRecOn generalizing s with
  | nil => unfold from0 run at h; cases h; cases hm
  | append_singleton acts a ih =>
    obtain ⟨s0, h0, hs⟩ := from_snoc h
    by_cases hold : .file n b ∈ s0.sent
    · obtain ⟨before, after, s1, d, w, e, h1, h2, h3, h4, h5, h6⟩ := ih h0 hold
      exact ⟨before, after ++ [a], s1, d, w, by rw [e]; simp, h1, h2, h3, h4, h5,
        fun hk => h6 (fun k hm => hk k (List.mem_append_left _ hm))⟩
    · rcases sent_step hs with e | ⟨t, e⟩ | ⟨-, m, er, e⟩ | ⟨f, rest, w, c, hp, hd, hact, hc⟩
      · rw [e] at hm; exact absurd hm hold
      · rw [e] at hm; simp at hm; exact absurd hm hold
      · rw [e] at hm; simp at hm; exact absurd hm hold
      · have hat := (inv_from h0).at_
        rw [hp] at hat
        simp only [At] at hat
        cases hdir : s0.dir with
        | none => rw [hdir] at hd; cases hd
        | some d =>
          rw [hdir] at hd
          rcases hc with ⟨-, e⟩ | ⟨k, hk, e⟩
          · rw [e] at hm
            simp only [List.mem_append, hold, false_or, List.mem_singleton, Part.file.injEq] at hm
            obtain ⟨rfl, rfl⟩ := hm
            exact ⟨acts, [a], s0, d, b, rfl, h0, hat.2.2.1, hdir, hd, List.prefix_refl _, fun _ => rfl⟩
          · subst c; rw [e] at hm
            simp only [List.mem_append, hold, false_or, List.mem_singleton, Part.file.injEq] at hm
            obtain ⟨rfl, rfl⟩ := hm
            exact ⟨acts, [a], s0, d, w, rfl, h0, hat.2.2.1, hdir, hd, List.take_prefix _ _,
              fun hno => absurd (List.mem_append_right _ (by rw [hact]; simp)) (hno k)⟩

theorem look_put_same (d : List (String × Bytes)) (n : String) (b : Bytes) : look (put d n b) n = some b := by
  simp [look, put]

theorem look_put_other {d : List (String × Bytes)} {n m : String} {b : Bytes} (h : m ≠ n) :
    look (put d n b) m = look d m := by
  unfold look put
  rw [List.find?_cons_of_neg (by simpa using h.symm), List.find?_filter]
  congr 2
  funext e
  by_cases he : e.1 = m
  · simp [he, h]
  · simp [he]

/-- What a step does to the directory. -/
theorem dir_step {s s' : State} {a : Act} (hi : Inv s) (h : step R T r s a = some s') :
    s'.dir = s.dir ∨ (s.picked = true ∧ a = .clear ∧ s'.dir = some []) ∨
    (s.pc = .naming ∧ s'.dir = some []) ∨ (s.pc = .save ∧ s'.dir = none) ∨
    (∃ d, s.pc = .save ∧ s.dir = some d ∧ s'.dir = some (put d "request.json.gz" [])) ∨
    (∃ n b, a = .upload n b ∧ n ≠ "details.json" ∧ s'.dir = s.dir.map (put · n b)) ∨
    ∃ g x l t, a = .close g x l t := by
  cases a with
  | pickUp => simp only [step] at h; split at h <;> cases h; exact Or.inl rfl
  | hangUp => simp only [step] at h; cases h; exact Or.inl rfl
  | clear =>
    simp only [step] at h; split at h <;> cases h
    rename_i hc
    exact Or.inr (Or.inl ⟨hc, rfl, rfl⟩)
  | upload n b =>
    simp only [step] at h; split at h <;> cases h
    rename_i hc
    exact Or.inr (Or.inr (Or.inr (Or.inr (Or.inr (Or.inl ⟨n, b, rfl, by intro e; exact hc.2 (by simp [e]), rfl⟩)))))
  | close g x l t => exact Or.inr (Or.inr (Or.inr (Or.inr (Or.inr (Or.inr ⟨g, x, l, t, rfl⟩)))))
  | handler c =>
    simp only [step] at h
    unfold handle at h
    have hat := hi.at_
    cases hp : s.pc <;> rw [hp] at h hat <;> (try dsimp only at h)
    case start => cases h; left; unfold front; (repeat' split) <;> rfl
    case naming =>
      cases c <;> simp only [reduceCtorEq] at h <;> cases h
      · exact Or.inl rfl
      · exact Or.inr (Or.inr (Or.inl ⟨rfl, rfl⟩))
    case save =>
      simp only [At] at hat
      cases c <;> simp only [reduceCtorEq] at h <;> cases h
      · cases hd : s.dir with
        | none => rw [hd] at hat; simp at hat
        | some d => exact Or.inr (Or.inr (Or.inr (Or.inr (Or.inl ⟨d, rfl, rfl, by simp⟩))))
      · exact Or.inr (Or.inr (Or.inr (Or.inl ⟨rfl, rfl⟩)))
      · exact Or.inl rfl
    case send l =>
      cases l with
      | nil => cases h; exact Or.inl rfl
      | cons f rest =>
        dsimp only at h
        split at h
        · cases h; exact Or.inl rfl
        · cases c <;> simp only [reduceCtorEq] at h <;> cases h <;> exact Or.inl rfl
    case done => cases h
    case choose => cases c <;> simp only [reduceCtorEq] at h <;> split at h <;> cases h <;> exact Or.inl rfl
    case wait => split at h <;> cases h; exact Or.inl rfl
    all_goals
      first
      | (cases h; exact Or.inl rfl)
      | (cases c <;> simp only [reduceCtorEq] at h <;> cases h <;> exact Or.inl rfl)

/-- The `details.json` of a run is what the run was closed with. -/
theorem verdict_only {acts : List Act} {s : State} (h : from0 R T r acts = some s) {d : List (String × Bytes)} {b : Bytes}
    (hd : s.dir = some d) (hb : look d "details.json" = some b) :
    ∃ good logs tracing, .close good b logs tracing ∈ acts := by
  induction acts using List.reverseRecOn generalizing s d with
  | nil => unfold from0 run at h; cases h; cases hd
  | append_singleton acts a ih =>
    obtain ⟨s0, h0, hs⟩ := from_snoc h
    have keep : ∀ d0, s0.dir = some d0 → look d0 "details.json" = some b → ∃ good logs tracing,
        .close good b logs tracing ∈ acts ++ [a] := by
      intro d0 h1 h2
      obtain ⟨g, l, t, hm⟩ := ih h0 h1 h2
      exact ⟨g, l, t, List.mem_append_left _ hm⟩
    rcases dir_step (inv_from h0) hs with e | ⟨-, -, e⟩ | ⟨-, e⟩ | ⟨-, e⟩ | ⟨d0, -, e0, e⟩ | ⟨n, c, -, hn, e⟩ | ⟨g, x, l, t, rfl⟩
    · exact keep d (e ▸ hd) hb
    · rw [e] at hd; cases hd; cases hb
    · rw [e] at hd; cases hd; cases hb
    · rw [e] at hd; cases hd
    · rw [e] at hd; cases hd
      rw [look_put_other (by decide)] at hb
      exact keep d0 e0 hb
    · rw [e] at hd
      cases h2 : s0.dir with
      | none => rw [h2] at hd; cases hd
      | some d0 =>
        rw [h2] at hd; cases hd
        rw [look_put_other hn.symm] at hb
        exact keep d0 h2 hb
    · simp only [step] at hs
      split at hs <;> cases hs
      simp only [Option.some.injEq] at hd
      by_cases h0g : 0 < g
      · refine ⟨g, l, t, ?_⟩
        have : look d "details.json" = some x := by
          rw [← hd]
          simp only [h0g, if_true]
          by_cases h2 : 2 < g
          · simp only [h2, show 1 < g by omega, if_true]
            rw [look_put_other (by decide), look_put_other (by decide), look_put_same]
          · simp only [h2, if_false]
            split
            · rw [look_put_other (by decide), look_put_same]
            · rw [look_put_same]
        rw [this] at hb
        cases hb; simp
      · simp only [h0g, show ¬ 1 < g by omega, show ¬ 2 < g by omega, if_false] at hd
        cases h2 : s0.dir with
        | none => rw [h2] at hd; simp at hd; rw [hd] at hb; cases hb
        | some d0 => rw [h2] at hd; simp at hd; subst hd; exact keep d0 h2 hb

/-- No upload begins after the run has been closed. -/
def NoLateUpload (acts : List Act) : Prop :=
  ∀ before after, acts = before ++ .clear :: after → ∀ g x l t, .close g x l t ∉ before

theorem NoLateUpload.init {acts : List Act} {a : Act} (h : NoLateUpload (acts ++ [a])) : NoLateUpload acts := by
  intro before after e
  exact h before (after ++ [a]) (by rw [e]; simp)

theorem closed_step {s s' : State} {a : Act} (h : step R T r s a = some s') :
    s'.closed = s.closed ∨ ∃ g x l t, a = .close g x l t := by
  cases a <;> simp only [step] at h
  case close => exact Or.inr ⟨_, _, _, _, rfl⟩
  case pickUp => split at h <;> cases h; exact Or.inl rfl
  case clear => split at h <;> cases h; exact Or.inl rfl
  case upload => split at h <;> cases h; exact Or.inl rfl
  case hangUp => cases h; exact Or.inl rfl
  case handler c =>
    unfold handle at h
    cases hp : s.pc <;> rw [hp] at h <;> (try dsimp only at h)
    case start => cases h; left; unfold front; (repeat' split) <;> rfl
    case send l =>
      cases l with
      | nil => cases h; exact Or.inl rfl
      | cons f rest =>
        dsimp only at h
        split at h
        · cases h; exact Or.inl rfl
        · cases c <;> simp only [reduceCtorEq] at h <;> cases h <;> exact Or.inl rfl
    case done => cases h
    case choose => cases c <;> simp only [reduceCtorEq] at h <;> split at h <;> cases h <;> exact Or.inl rfl
    case wait => split at h <;> cases h; exact Or.inl rfl
    all_goals
      first
      | (cases h; exact Or.inl rfl)
      | (cases c <;> simp only [reduceCtorEq] at h <;> cases h <;> exact Or.inl rfl)

/-- A run is closed once it has been closed, and not before. -/
theorem closed_iff {acts : List Act} {s : State} (h : from0 R T r acts = some s) :
    s.closed = true ↔ ∃ g x l t, .close g x l t ∈ acts := by
  induction acts using List.reverseRecOn generalizing s with
  | nil => unfold from0 run at h; cases h; simp
  | append_singleton acts a ih =>
    obtain ⟨s0, h0, hs⟩ := from_snoc h
    have := ih h0
    rcases closed_step hs with e | ⟨g, x, l, t, rfl⟩
    · rw [e, this]
      constructor
      · rintro ⟨g, x, l, t, hm⟩; exact ⟨g, x, l, t, List.mem_append_left _ hm⟩
      · rintro ⟨g, x, l, t, hm⟩
        rcases List.mem_append.1 hm with hm | hm
        · exact ⟨g, x, l, t, hm⟩
        · rw [← List.mem_singleton.1 hm] at hs
          simp only [step] at hs
          split at hs <;> cases hs
          rename_i hc
          exact absurd e.symm (by simpa using hc.2)
    · simp only [step] at hs
      split at hs <;> cases hs
      exact ⟨fun _ => ⟨g, x, l, t, by simp⟩, fun _ => rfl⟩

/-- When the run is over, its directory has not been removed and no upload came late, it holds a verdict and logs. -/
theorem verdict_there {acts : List Act} {s : State} (h : from0 R T r acts = some s) (hr : s.ready = true)
    (hl : NoLateUpload acts) {d : List (String × Bytes)} (hd : s.dir = some d) :
    look d "details.json" ≠ none ∧ look d "logs.txt.gz" ≠ none := by
  induction acts using List.reverseRecOn generalizing s d with
  | nil => unfold from0 run at h; cases h; cases hr
  | append_singleton acts a ih =>
    obtain ⟨s0, h0, hs⟩ := from_snoc h
    have hi0 := inv_from h0
    have hq : s0.ready = true → s0.queued = true := fun h => hi0.queued (hi0.picked (hi0.closed h))
    have hre : (∃ g x l t, a = .close g x l t) ∨ s0.ready = true := by
      by_cases hc : ∃ g x l t, a = .close g x l t
      · exact Or.inl hc
      · right
        rw [← hr]
        cases a <;> simp only [step] at hs
        case close => exact absurd ⟨_, _, _, _, rfl⟩ hc
        case pickUp => split at hs <;> cases hs; rfl
        case clear => split at hs <;> cases hs; rfl
        case upload => split at hs <;> cases hs; rfl
        case hangUp => cases hs; rfl
        case handler c =>
          unfold handle at hs
          cases hp : s0.pc <;> rw [hp] at hs <;> (try dsimp only at hs)
          case start => cases hs; unfold front; (repeat' split) <;> rfl
          case send l =>
            cases l with
            | nil => cases hs; rfl
            | cons f rest =>
              dsimp only at hs
              split at hs
              · cases hs; rfl
              · cases c <;> simp only [reduceCtorEq] at hs <;> cases hs <;> rfl
          case done => cases hs
          case choose => cases c <;> simp only [reduceCtorEq] at hs <;> split at hs <;> cases hs <;> rfl
          case wait => split at hs <;> cases hs; rfl
          all_goals
            first
            | (cases hs; rfl)
            | (cases c <;> simp only [reduceCtorEq] at hs <;> cases hs <;> rfl)
    rcases hre with ⟨g, x, l, t, rfl⟩ | h0r
    · simp only [step] at hs
      split at hs <;> cases hs
      have hg : 2 < g := by simpa using hr
      simp only [show 0 < g by omega, show 1 < g by omega, hg, if_true, Option.some.injEq] at hd
      rw [← hd]
      constructor
      · rw [look_put_other (by decide), look_put_other (by decide), look_put_same]; simp
      · rw [look_put_other (by decide), look_put_same]; simp
    · have keepPut : ∀ d0 n b, s0.dir = some d0 → d = put d0 n b →
          look d "details.json" ≠ none ∧ look d "logs.txt.gz" ≠ none := by
        intro d0 n b h2 h3
        obtain ⟨hx, hy⟩ := ih h0 h0r hl.init h2
        have : ∀ m, look d0 m ≠ none → look d m ≠ none := by
          intro m hm
          rw [h3]
          by_cases e : m = n
          · rw [e, look_put_same]; simp
          · rw [look_put_other e]; exact hm
        exact ⟨this _ hx, this _ hy⟩
      rcases dir_step hi0 hs with e | ⟨-, e1, e⟩ | ⟨hp, e⟩ | ⟨-, e⟩ | ⟨d0, -, e0, e⟩ | ⟨n, c, -, hn, e⟩ | ⟨g, x, l, t, rfl⟩
      · exact ih h0 h0r hl.init (e ▸ hd)
      · obtain ⟨g, x, l, t, hm⟩ := (closed_iff h0).1 (hi0.closed h0r)
        exact absurd hm (hl acts [] (by rw [e1]) g x l t)
      · have := hi0.at_
        rw [hp] at this
        simp only [At] at this
        rw [this.2.2.1] at hq
        exact absurd (hq h0r) (by simp)
      · rw [e] at hd; cases hd
      · rw [e] at hd; cases hd; exact keepPut d0 _ _ e0 rfl
      · rw [e] at hd
        cases h2 : s0.dir with
        | none => rw [h2] at hd; cases hd
        | some d0 => rw [h2] at hd; cases hd; exact keepPut d0 n c h2 rfl
      · simp only [step] at hs
        split at hs <;> cases hs
        rename_i hc
        exact absurd (hi0.closed h0r) hc.2

/-- C156, the verdict: what is sent as `details.json` is what the run was closed with, or, if reading it
fails, the beginning of it. -/
theorem verdict_is_the_runs {acts : List Act} {s : State} {b : Bytes} (h : from0 R T r acts = some s)
    (hm : .file "details.json" b ∈ s.sent) :
    ∃ good details logs tracing, .close good details logs tracing ∈ acts ∧ b <+: details ∧
      ((∀ k, .handler (.cut k) ∉ acts) → b = details) := by
  obtain ⟨before, after, s0, d, w, e, h0, hr, hd, hl, hb, hw⟩ := files_as_they_were h hm
  obtain ⟨g, l, t, hc⟩ := verdict_only h0 hd hl
  exact ⟨g, w, l, t, by rw [e]; exact List.mem_append_left _ hc, hb, hw⟩

end Quark.Conversation
