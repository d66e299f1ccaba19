import Verif.Session.Model
import Verif.Filter.Props

/-!
# The endpoint of event subscriptions: properties
-/

namespace Quark.Session

open Filter (Text Validated Subscriber NewSub split joined Form)

/-! ## C122: which transport -/

/-- White space, as Unicode has it. -/
def spaces : List Nat := [9, 10, 11, 12, 13, 32, 133, 160, 5760, 8192, 8193, 8194, 8195, 8196, 8197, 8198, 8199, 8200, 8201,
  8202, 8232, 8233, 8239, 8287, 12288]

theorem space_iff (c : Char) : isSpace c = true ↔ c.toNat ∈ spaces := by
  have h : ∀ d : Char, c = d ↔ c.toNat = d.toNat := fun d => Char.ext_iff.trans (by
    constructor
    · intro h; exact congrArg UInt32.toNat h
    · intro h; exact UInt32.toNat_inj.mp h)
  unfold isSpace spaces
  simp only [Bool.or_eq_true, decide_eq_true_eq, Bool.and_eq_true, h]
  have e : '\t'.toNat = 9 ∧ '\n'.toNat = 10 ∧ '\r'.toNat = 13 ∧ ' '.toNat = 32 := by decide
  rw [e.1, e.2.1, e.2.2.1, e.2.2.2]
  simp only [List.mem_cons, List.not_mem_nil, or_false]
  omega

/-- A list separated by commas has an element, perhaps with white space around it. -/
def Lists (line mime : Text) : Prop :=
  ∃ pre a b post, line = pre ++ (a ++ mime ++ b) ++ post ∧ (∀ c ∈ a, isSpace c = true) ∧ (∀ c ∈ b, isSpace c = true) ∧
    (pre = [] ∨ ∃ p, pre = p ++ [',']) ∧ (post = [] ∨ ∃ p, post = ',' :: p)

theorem dropWhile_split (p : Char → Bool) (t : Text) :
    ∃ a, t = a ++ t.dropWhile p ∧ ∀ c ∈ a, p c = true :=
  ⟨t.takeWhile p, List.takeWhile_append_dropWhile.symm, fun _ hc => List.mem_takeWhile_imp hc⟩

theorem dropWhile_all {p : Char → Bool} {a t : Text} (ha : ∀ c ∈ a, p c = true) :
    (a ++ t).dropWhile p = t.dropWhile p := by
  induction a with
  | nil => rfl
  | cons x a ih =>
    rw [List.forall_mem_cons] at ha
    rw [List.cons_append, List.dropWhile_cons, if_pos ha.1, ih ha.2]

theorem dropWhile_head {p : Char → Bool} {c : Char} {t : Text} (h : p c = false) : (c :: t).dropWhile p = c :: t := by
  rw [List.dropWhile_cons, if_neg (by simp [h])]

theorem trimSpace_iff {m mime : Text} {c d : Char} {x y : Text} (h1 : mime = c :: x) (hc : isSpace c = false)
    (h2 : mime = y ++ [d]) (hd : isSpace d = false) :
    trimSpace m = mime ↔ ∃ a b, m = a ++ mime ++ b ∧ (∀ c ∈ a, isSpace c = true) ∧ (∀ c ∈ b, isSpace c = true) := by
  unfold trimSpace
  constructor
  · intro h
    obtain ⟨a, ha, ha'⟩ := dropWhile_split isSpace m
    obtain ⟨b, hb, hb'⟩ := dropWhile_split isSpace (m.dropWhile isSpace).reverse
    refine ⟨a, b.reverse, ?_, ha', fun c hc => hb' c (List.mem_reverse.mp hc)⟩
    have hb2 := congrArg List.reverse hb
    rw [List.reverse_reverse, List.reverse_append, h] at hb2
    rw [List.append_assoc, ← hb2]
    exact ha
  · rintro ⟨a, b, rfl, ha, hb⟩
    rw [List.append_assoc, dropWhile_all ha]
    conv_lhs => rw [h1]
    rw [List.cons_append, dropWhile_head hc, ← List.cons_append, ← h1, List.reverse_append,
      dropWhile_all (fun c hc => hb c (List.mem_reverse.mp hc))]
    conv_lhs => rw [h2]
    rw [List.reverse_append, List.reverse_singleton, List.singleton_append, dropWhile_head hd,
      List.reverse_cons, List.reverse_reverse, ← h2]

theorem space_ne_comma {c : Char} (h : isSpace c = true) : c ≠ ',' := by
  rintro rfl
  revert h; decide

theorem mem_split_iff {c : Char} {s t : Text} : t ∈ split c s ↔ c ∉ t ∧ ∃ pre post, s = pre ++ t ++ post ∧
    (pre = [] ∨ ∃ p, pre = p ++ [c]) ∧ (post = [] ∨ ∃ p, post = c :: p) := by
  constructor
  · intro h
    obtain ⟨h1, h2⟩ := Filter.split_spec c s
    refine ⟨h1 t h, ?_⟩
    rw [← h2]
    generalize split c s = ts at h
    clear h1 h2
    induction ts with
    | nil => cases h
    | cons u us ih =>
      rcases List.mem_cons.mp h with rfl | h
      · cases us with
        | nil => exact ⟨[], [], by simp [joined], Or.inl rfl, Or.inl rfl⟩
        | cons v vs => exact ⟨[], c :: joined c (v :: vs), by simp [joined], Or.inl rfl, Or.inr ⟨_, rfl⟩⟩
      · cases us with
        | nil => cases h
        | cons v vs =>
          obtain ⟨pre, post, h1, h2, h3⟩ := ih h
          refine ⟨u ++ c :: pre, post, ?_, Or.inr ?_, h3⟩
          · rw [joined, h1]; simp
            intro h; cases h
          · rcases h2 with rfl | ⟨p, rfl⟩
            · exact ⟨u, rfl⟩
            · exact ⟨u ++ c :: p, by simp⟩
  · rintro ⟨ht, pre, post, rfl, hpre, hpost⟩
    have key : t ∈ split c (t ++ post) := by
      rcases hpost with rfl | ⟨p, rfl⟩
      · rw [List.append_nil, Filter.split_single ht]; exact List.mem_singleton.mpr rfl
      · rw [Filter.split_cons _ ht]; exact List.mem_cons_self
    rcases hpre with rfl | ⟨p, rfl⟩
    · exact key
    · rw [List.append_assoc, List.append_assoc, List.singleton_append]
      generalize t ++ post = w at key
      clear hpost ht
      induction p with
      | nil => rw [List.nil_append, Filter.split, if_pos rfl]; exact List.mem_cons_of_mem _ key
      | cons x p ih =>
        rw [List.cons_append, Filter.split]
        by_cases e : x = c
        · rw [if_pos e]; exact List.mem_cons_of_mem _ ih
        · rw [if_neg e]
          -- the element is not the first one of the rest, which ends at or before the separator
          have : ∃ f fs, split c (p ++ c :: w) = f :: fs ∧ t ∈ fs := by
            clear ih e x
            induction p with
            | nil => rw [List.nil_append, Filter.split, if_pos rfl]; exact ⟨_, _, rfl, key⟩
            | cons x p ih =>
              obtain ⟨f, fs, h1, h2⟩ := ih
              rw [List.cons_append, Filter.split]
              by_cases e : x = c
              · rw [if_pos e]; exact ⟨_, _, rfl, by rw [h1]; exact List.mem_cons_of_mem _ h2⟩
              · rw [if_neg e, h1]; exact ⟨_, _, rfl, h2⟩
          obtain ⟨f, fs, h1, h2⟩ := this
          rw [h1]
          exact List.mem_cons_of_mem _ h2

/-- `AcceptsMimeType` finds the elements of the `Accept` lines that are the type, and nothing else but white space. -/
theorem accepts_iff (accept : List Text) {mime : Text} {c d : Char} {x y : Text} (h1 : mime = c :: x)
    (hc : isSpace c = false) (h2 : mime = y ++ [d]) (hd : isSpace d = false) (hn : ',' ∉ mime) :
    acceptsMimeType accept mime = true ↔ ∃ line ∈ accept, Lists line mime := by
  unfold acceptsMimeType Lists
  simp only [List.any_eq_true, decide_eq_true_eq]
  constructor
  · rintro ⟨line, hl, m, hm, ht⟩
    obtain ⟨_, pre, post, h3, h4, h5⟩ := mem_split_iff.mp hm
    obtain ⟨a, b, rfl, ha, hb⟩ := (trimSpace_iff h1 hc h2 hd).mp ht
    exact ⟨line, hl, pre, a, b, post, h3, ha, hb, h4, h5⟩
  · rintro ⟨line, hl, pre, a, b, post, h3, ha, hb, h4, h5⟩
    refine ⟨line, hl, a ++ mime ++ b, mem_split_iff.mpr ⟨?_, pre, post, h3, h4, h5⟩,
      (trimSpace_iff h1 hc h2 hd).mpr ⟨a, b, rfl, ha, hb⟩⟩
    rw [List.mem_append, List.mem_append]
    rintro ((h | h) | h)
    · exact space_ne_comma (ha _ h) rfl
    · exact hn h
    · exact space_ne_comma (hb _ h) rfl

/-- The client lists event streams. -/
def Streams (accept : List Text) : Prop := ∃ line ∈ accept, Lists line "text/event-stream".toList

theorem streams_iff (accept : List Text) : acceptsMimeType accept eventStream = true ↔ Streams accept :=
  accepts_iff accept (c := 't') (d := 'm') (x := eventStream.drop 1) (y := eventStream.take 16)
    (by decide) (by decide) (by decide) (by decide) (by decide)

/-- **C122** (partial): the transport is decided by the type alone among the elements of `Accept`. What is missing: types
with parameters, wildcards, and other cases of the letters are not recognised (`C122_parameters`). -/
theorem C122_transport_partial (r : Request) (up : Bool) (reply : Reply) (room : Bool) :
    ((handle r up reply room).shown = .notUpgraded ↔ (¬ Streams r.accept ∧ up = false)) ∧
    (∀ b, (handle r up reply room).shown = .events b → (b = true ↔ Streams r.accept)) := by
  rw [← streams_iff]
  unfold handle refuse
  cases hs : acceptsMimeType r.accept eventStream <;> cases up <;> simp only [Bool.not_false, Bool.not_true,
    Bool.and_self, Bool.and_true, Bool.and_false, if_true, if_false, Bool.false_eq_true] <;>
    first
    | (refine ⟨by simp, ?_⟩; intro b h; cases h)
    | (split
       · exact ⟨by simp, by intro b h; cases h⟩
       · exact ⟨by simp, by intro b h; cases h⟩
       · split
         · exact ⟨by simp, by intro b h; cases h⟩
         · refine ⟨?_, ?_⟩
           · cases reply with
             | failed => simp [failure]
             | answer s b d => cases d <;> simp [failure]
           · intro b h
             cases reply with
             | failed => simp [failure] at h
             | answer s b d => cases d <;> simp [failure] at h
         · cases room
           · exact ⟨by simp, by intro b h; simp at h⟩
           · exact ⟨by simp, by intro b h; simp at h; simp [← h]⟩)

/-- Browsers' weights, wildcards and upper case do not count as accepting an event stream; the client is told that its
request is none for a WebSocket. -/
theorem C122_parameters : ∀ a ∈ ["text/event-stream;q=0.9", "text/*", "*/*", "Text/Event-Stream",
      "text/event-stream; charset=utf-8"], ∀ reply room fs,
    (handle { accept := [a.toList], filters := fs } false reply room).shown = .notUpgraded := by
  intro a ha reply room fs
  have : ∀ a ∈ ["text/event-stream;q=0.9", "text/*", "*/*", "Text/Event-Stream",
      "text/event-stream; charset=utf-8"], acceptsMimeType [a.toList] eventStream = false := by decide +kernel
  simp [handle, this a ha]

example : Streams ["text/html".toList, "*/*, text/event-stream ,x".toList] :=
  (streams_iff _).mp (by decide +kernel)

/-! ## C122: what is answered -/

/-- The filters that a request asks for: all texts between commas in all its values. -/
def Understood (values : List Text) : Prop :=
  values ≠ [] ∧ ∀ v ∈ values, ∀ ts, v = joined ',' ts → ts ≠ [] → (∀ t ∈ ts, ',' ∉ t) → ∀ t ∈ ts, ∃ f, Form t f

theorem foldl_join (ts : List Text) (t : Text) :
    ts.foldl (fun acc u => acc ++ ',' :: u) t = joined ',' (t :: ts) := by
  induction ts generalizing t with
  | nil => rfl
  | cons u us ih =>
    rw [List.foldl_cons, ih]
    cases us with
    | nil => simp [joined]
    | cons v vs => simp [joined]

theorem joinComma_eq (vs : List Text) : joinComma vs = joined ',' vs := by
  cases vs with
  | nil => rfl
  | cons t ts => exact foldl_join ts t

theorem split_join_values (vs : List Text) (h : vs ≠ []) : split ',' (joined ',' vs) = vs.flatMap (split ',') := by
  induction vs with
  | nil => exact absurd rfl h
  | cons v vs ih =>
    cases vs with
    | nil => simp [joined]
    | cons u us =>
      rw [joined, List.flatMap_cons, ← ih (by simp)]
      · generalize joined ',' (u :: us) = w
        clear h ih
        induction v with
        | nil => simp [Filter.split]
        | cons x v ihv =>
          rw [List.cons_append, Filter.split, Filter.split]
          by_cases e : x = ','
          · rw [if_pos e, if_pos e, ihv]; rfl
          · rw [if_neg e, if_neg e, ihv]
            cases hs : split ',' v with
            | nil => exact absurd hs (Filter.split_ne_nil _ _)
            | cons a as => rfl
      · intro h; cases h

theorem understood_iff (vs : List Text) : Understood vs ↔ ∀ t ∈ split ',' (joined ',' vs), ∃ f, Form t f := by
  constructor
  · rintro ⟨hne, h⟩ t ht
    rw [split_join_values vs hne] at ht
    obtain ⟨v, hv, ht⟩ := List.mem_flatMap.mp ht
    obtain ⟨h1, h2⟩ := Filter.split_spec ',' v
    exact h v hv _ h2.symm (Filter.split_ne_nil _ _) h1 t ht
  · intro h
    have hne : vs ≠ [] := by
      rintro rfl
      obtain ⟨f, hf⟩ := h [] (by simp [joined, Filter.split])
      have := Filter.form_slash hf
      cases this
    refine ⟨hne, ?_⟩
    intro v hv ts hts htne hns t ht
    refine h t ?_
    rw [split_join_values vs hne]
    refine List.mem_flatMap.mpr ⟨v, hv, ?_⟩
    rw [hts, Filter.split_joined htne hns]
    exact ht

/-- Whether one of the texts between commas is the one that makes `NewFilter` panic, and those before it are
understood. -/
theorem parse_cases (ts : List Text) (acc) :
    ((∀ t ∈ ts, ∃ f, Form t f) ∧ ∃ fs, Filter.parseFilters ts acc = (some fs, false)) ∨
    ((∃ pre post, ts = pre ++ "/problemset".toList :: post ∧ ∀ t ∈ pre, ∃ f, Form t f) ∧
      Filter.parseFilters ts acc = (none, true)) ∨
    ((∃ pre x post, ts = pre ++ x :: post ∧ (∀ t ∈ pre, ∃ f, Form t f) ∧ (¬ ∃ f, Form x f) ∧
        x ≠ "/problemset".toList) ∧ Filter.parseFilters ts acc = (none, false)) := by
  induction ts generalizing acc with
  | nil => exact Or.inl ⟨(fun _ h => by cases h), acc, rfl⟩
  | cons t ts ih =>
    rw [Filter.parseFilters]
    cases hp : Filter.newFilter t with
    | ok f =>
      have hf : ∃ f, Form t f := ⟨f, (Filter.C41_accepts t f).mp hp⟩
      rcases ih (acc ++ [f]) with ⟨h1, h2⟩ | ⟨⟨pre, post, h1, h2⟩, h3⟩ | ⟨⟨pre, x, post, h1, h2, h3⟩, h4⟩
      · exact Or.inl ⟨List.forall_mem_cons.mpr ⟨hf, h1⟩, h2⟩
      · exact Or.inr (Or.inl ⟨⟨t :: pre, post, by rw [h1]; rfl, List.forall_mem_cons.mpr ⟨hf, h2⟩⟩, h3⟩)
      · exact Or.inr (Or.inr ⟨⟨t :: pre, x, post, by rw [h1]; rfl, List.forall_mem_cons.mpr ⟨hf, h2⟩, h3⟩, h4⟩)
    | error =>
      refine Or.inr (Or.inr ⟨⟨[], t, ts, rfl, (fun _ h => by cases h), ?_, ?_⟩, rfl⟩)
      · rintro ⟨f, hf⟩
        rw [(Filter.C41_accepts t f).mpr hf] at hp; cases hp
      · intro e
        rw [e, (Filter.C41_panics_partial _).mpr rfl] at hp; cases hp
    | panic =>
      have := (Filter.C41_panics_partial t).mp hp
      subst this
      exact Or.inr (Or.inl ⟨⟨[], ts, rfl, (fun _ h => by cases h)⟩, rfl⟩)

theorem newSubscriber_some {filters : Text} {fs v} (h : Filter.parseFilters (split ',' filters) [] = (some fs, false)) :
    ∃ s, Filter.newSubscriber filters (some v) = .ok s := by
  unfold Filter.newSubscriber
  rw [h]
  exact ⟨_, rfl⟩

theorem newSubscriber_none {filters : Text} {fs} (h : Filter.parseFilters (split ',' filters) [] = (some fs, false)) :
    Filter.newSubscriber filters none = .error := by
  unfold Filter.newSubscriber
  rw [h]

/-- The texts between commas of a request, up to the first one that is not understood. -/
def Panics (values : List Text) : Prop :=
  ∃ pre post, split ',' (joined ',' values) = pre ++ "/problemset".toList :: post ∧ ∀ t ∈ pre, ∃ f, Form t f

/-- **C122**: everything that an event stream's client can be answered. -/
theorem C122_answers (r : Request) (up : Bool) (reply : Reply) (room : Bool) (hs : Streams r.accept) :
    (Understood r.filters ∧ (
      (∃ b v, reply = .answer 200 b (some v) ∧
        (handle r up reply room).shown = if room then .events true else .unavailable) ∨
      (∃ st b v, st ≠ 200 ∧ reply = .answer st b (some v) ∧ (handle r up reply room).shown = .upstream st b) ∨
      ((reply = .failed ∨ ∃ st b, reply = .answer st b none) ∧ (handle r up reply room).shown = .empty200))) ∨
    (Panics r.filters ∧ (handle r up reply room).shown = .aborted) ∨
    (¬ Understood r.filters ∧ ¬ Panics r.filters ∧ (handle r up reply room).shown = .empty200) := by
  have hs' := (streams_iff _).mpr hs
  have hj := joinComma_eq r.filters
  rw [understood_iff]
  unfold Panics
  rcases parse_cases (split ',' (joined ',' r.filters)) [] with ⟨h1, fs, h2⟩ | ⟨h1, h3⟩ | ⟨⟨pre, x, post, h1, h2, h3, h5⟩, h4⟩
  · refine Or.inl ⟨h1, ?_⟩
    unfold handle
    simp only [hs', hj, h2, Bool.not_true, Bool.false_and, Bool.false_eq_true, if_false]
    have fail : consent reply = none →
        (match Filter.newSubscriber (joined ',' r.filters) (consent reply) with
          | .panic => ({ shown := .aborted } : Outcome)
          | .error => { asked := some (ask r), shown := refuse true (failure reply) }
          | .ok s => if room then { asked := some (ask r), shown := .events true, subscriber := some s }
            else { asked := some (ask r), shown := refuse true .unavailable }).shown = failure reply := by
      intro h
      rw [h, newSubscriber_none h2]
      rfl
    cases reply with
    | failed => exact Or.inr (Or.inr ⟨Or.inl rfl, fail rfl⟩)
    | answer st b d =>
      cases d with
      | none =>
        refine Or.inr (Or.inr ⟨Or.inr ⟨st, b, rfl⟩, ?_⟩)
        refine fail ?_
        unfold consent; split
        · rename_i h; cases h
        · rfl
      | some v =>
        by_cases e : st = 200
        · subst e
          refine Or.inl ⟨b, v, rfl, ?_⟩
          obtain ⟨s, h⟩ := newSubscriber_some (v := v) h2
          simp only [consent, h]
          cases room <;> rfl
        · refine Or.inr (Or.inl ⟨st, b, v, e, rfl, ?_⟩)
          refine fail ?_
          unfold consent; split
          · rename_i h; injection h with h; exact absurd h e
          · rfl
  · refine Or.inr (Or.inl ⟨h1, ?_⟩)
    unfold handle
    simp only [hs', hj, h3, Bool.not_true, Bool.false_and, Bool.false_eq_true, if_false]
  · refine Or.inr (Or.inr ⟨?_, ?_, ?_⟩)
    · intro h
      exact h3 (h x (by rw [h1]; simp))
    · rintro ⟨pre', post', h6, h7⟩
      rw [h1] at h6
      have hbad : ¬ ∃ f, Form "/problemset".toList f := by
        rintro ⟨f, hf⟩
        rw [← Filter.C41_accepts, Filter.C41_panic_at] at hf; cases hf
      rcases List.append_eq_append_iff.mp h6 with ⟨a, ha, hb⟩ | ⟨a, ha, hb⟩
      · cases a with
        | nil => simp at hb; exact h5 hb.1
        | cons y a =>
          rw [List.cons_append] at hb
          injection hb with hb1 hb2
          exact h3 (h7 x (by rw [ha, hb1]; simp))
      · cases a with
        | nil => simp at hb; exact h5 hb.1.symm
        | cons y a =>
          rw [List.cons_append] at hb
          injection hb with hb1 hb2
          exact hbad (h2 _ (by rw [ha, ← hb1]; simp))
    · unfold handle
      simp only [hs', hj, h4, Bool.not_true, Bool.false_and, Bool.false_eq_true, if_false]
      rfl

/-- **C122 is false**: status 200 with nothing does not mean that there is a subscription. A request with a filter that is
not understood gets it, and so does one that the frontend refuses with a page that is not JSON. -/
theorem C122_silent (room : Bool) :
    ((handle { accept := ["text/event-stream".toList], filters := ["/contests/omi".toList] } false .failed room).shown
      = .empty200 ∧
     (handle { accept := ["text/event-stream".toList], filters := ["/contests/omi".toList] } false .failed room).subscriber
      = none) ∧
    (∀ st b, (handle { accept := ["text/event-stream".toList], filters := ["/contest/omi".toList] } false
        (.answer st b none) room).shown = .empty200 ∧
      (handle { accept := ["text/event-stream".toList], filters := ["/contest/omi".toList] } false
        (.answer st b none) room).subscriber = none) := by
  have hs : acceptsMimeType ["text/event-stream".toList] eventStream = true := by decide +kernel
  have h1 : Filter.parseFilters (split ',' (joinComma ["/contests/omi".toList])) [] = (none, false) := by decide +kernel
  have h2 : Filter.parseFilters (split ',' (joinComma ["/contest/omi".toList])) []
    = (some [.contest "omi".toList []], false) := by decide +kernel
  refine ⟨⟨?_, ?_⟩, fun st b => ⟨?_, ?_⟩⟩
  · simp only [handle, hs, h1]; rfl
  · simp only [handle, hs, h1]; rfl
  · have : consent (.answer st b none) = none := by unfold consent; split <;> [(rename_i h; cases h); rfl]
    simp only [handle, hs, h2, this, newSubscriber_none h2]; rfl
  · have : consent (.answer st b none) = none := by unfold consent; split <;> [(rename_i h; cases h); rfl]
    simp only [handle, hs, h2, this, newSubscriber_none h2]; rfl

/-! ## C123: the frontend judges what the broadcaster uses -/

/-- The value of a hexadecimal digit. -/
def hexValue (b : UInt8) : Option Nat :=
  if 48 ≤ b.toNat ∧ b.toNat ≤ 57 then some (b.toNat - 48)
  else if 65 ≤ b.toNat ∧ b.toNat ≤ 70 then some (b.toNat - 55)
  else if 97 ≤ b.toNat ∧ b.toNat ≤ 102 then some (b.toNat - 87)
  else none

/-- `application/x-www-form-urlencoded`: how a value is decoded. -/
def formDecode : List UInt8 → Option (List UInt8)
  | [] => some []
  | b :: rest =>
    if b = 43 then (formDecode rest).map (32 :: ·)
    else if b = 37 then
      match rest with
      | x :: y :: rest' =>
        match hexValue x, hexValue y with
        | some h, some l => (formDecode rest').map (UInt8.ofNat (16 * h + l) :: ·)
        | _, _ => none
      | _ => none
    else (formDecode rest).map (b :: ·)

theorem hex_hex (n : Nat) (h : n < 16) : hexValue (upperHex n) = some n := by
  have : ∀ n, n < 16 → hexValue (upperHex n) = some n := by decide
  exact this n h

theorem formDecode_escape (b : UInt8) (rest : List UInt8) :
    formDecode (escapeByte b ++ rest) = (formDecode rest).map (b :: ·) := by
  unfold escapeByte
  by_cases hu : unreserved b = true
  · rw [if_pos hu, List.singleton_append, formDecode.eq_def]
    dsimp only
    rw [if_neg, if_neg]
    · rintro rfl; revert hu; decide
    · rintro rfl; revert hu; decide
  · rw [if_neg hu]
    by_cases h32 : b = 32
    · rw [if_pos h32, List.singleton_append, formDecode.eq_def]
      dsimp only
      rw [if_pos rfl, h32]
    · rw [if_neg h32]
      have hb : b.toNat < 256 := b.toNat_lt
      simp only [List.cons_append, List.nil_append]
      rw [formDecode, if_neg (by decide), if_pos rfl]
      simp only [hex_hex _ (show b.toNat / 16 < 16 by omega), hex_hex _ (show b.toNat % 16 < 16 by omega)]
      have : UInt8.ofNat (16 * (b.toNat / 16) + b.toNat % 16) = b := by
        rw [Nat.div_add_mod]; exact UInt8.ofNat_toNat
      rw [this]

theorem formDecode_all (l : List UInt8) : formDecode (l.flatMap escapeByte) = some l := by
  induction l with
  | nil => rfl
  | cons b l ih => rw [List.flatMap_cons, formDecode_escape, ih]; rfl

/-- `url.QueryEscape` leaves letters, digits and `-_.~` alone, writes a space as `+`, and all else as `%` and two digits
in upper case. -/
theorem escape_exact : ∀ n : Fin 256, escapeByte (UInt8.ofNat n.val) =
    if Char.ofNat n.val ∈ "ABCDEFGHIJKLMNOPQRSTUVWXYZabcdefghijklmnopqrstuvwxyz0123456789-_.~".toList then [UInt8.ofNat n.val]
    else if n.val = 32 then [43]
    else [37] ++ ([n.val / 16, n.val % 16].map fun d => UInt8.ofNat (if d < 10 then 48 + d else 55 + d)) := by
  decide +kernel

/-- The bytes of an escaped value are letters, digits, `-_.~`, `+` and `%`. -/
theorem escape_bytes (b : UInt8) : ∀ c ∈ escapeByte b, unreserved c = true ∨ c = 43 ∨ c = 37 := by
  unfold escapeByte
  intro c hc
  by_cases hu : unreserved b = true
  · rw [if_pos hu] at hc; rw [List.mem_singleton.mp hc]; exact Or.inl hu
  · rw [if_neg hu] at hc
    by_cases h32 : b = 32
    · rw [if_pos h32] at hc; exact Or.inr (Or.inl (List.mem_singleton.mp hc))
    · rw [if_neg h32] at hc
      have hb : b.toNat < 256 := b.toNat_lt
      have hx : ∀ n, n < 16 → unreserved (upperHex n) = true := by decide
      simp only [List.mem_cons, List.not_mem_nil, or_false] at hc
      rcases hc with rfl | rfl | rfl
      · exact Or.inr (Or.inr rfl)
      · exact Or.inl (hx _ (by omega))
      · exact Or.inl (hx _ (by omega))

/-- The request to the frontend has one parameter, `filter`, with the value that a server decodes to the given bytes:
there is nothing in it that could end the value or start another one. -/
def OnlyFilter (query value : List UInt8) : Prop :=
  ∃ v, query = "filter=".toUTF8.toList ++ v ∧ formDecode v = some value ∧ ∀ c ∈ v, c ≠ 38 ∧ c ≠ 59 ∧ c ≠ 35

theorem encodeQuery_only (filters : Text) : OnlyFilter (encodeQuery filters) (utf8 filters) := by
  refine ⟨(utf8 filters).flatMap escapeByte, ?_, formDecode_all _, ?_⟩
  · have : "filter=".toUTF8.toList = [102, 105, 108, 116, 101, 114, 61] := by decide +kernel
    rw [this]; rfl
  · intro c hc
    obtain ⟨b, _, hc⟩ := List.mem_flatMap.mp hc
    rcases escape_bytes b c hc with h | rfl | rfl
    · refine ⟨?_, ?_, ?_⟩ <;> (rintro rfl; revert h; decide)
    · decide
    · decide

/-- **C123**: whenever somebody is subscribed the frontend was asked, about exactly the values of the request joined with
commas, and with the token of the request; the subscription has the filters in those values, in their order, and the
permissions that the frontend answered with status 200. -/
theorem C123_judged (r : Request) (up : Bool) (reply : Reply) (room : Bool) (s : Subscriber)
    (h : (handle r up reply room).subscriber = some s) :
    ∃ a body v, (handle r up reply room).asked = some a ∧ reply = .answer 200 body (some v) ∧
      OnlyFilter a.query (utf8 (joined ',' r.filters)) ∧
      (∀ c, a.cookie = some c ↔ ∃ tok, r.ouat = some tok ∧ tok ≠ [] ∧ c = "ouat=".toList ++ tok) ∧
      s.user = v.user ∧ s.admin = v.admin ∧ s.problemAdmin = v.problemAdmin ∧ s.contestAdmin = v.contestAdmin ∧
      s.problemsetAdmin = v.problemsetAdmin ∧
      (∀ ts : List (List Text), List.Forall₂ (fun w t => w = joined ',' t ∧ t ≠ [] ∧ ∀ x ∈ t, ',' ∉ x) r.filters ts →
        List.Forall₂ Form ts.flatten s.filters) := by
  have hcookie : ∀ c, (ask r).cookie = some c ↔ ∃ tok, r.ouat = some tok ∧ tok ≠ [] ∧ c = "ouat=".toList ++ tok := by
    intro c
    have e : "ouat=".toList = ['o', 'u', 'a', 't', '='] := by decide
    rw [e]
    unfold ask
    cases ho : r.ouat with
    | none => simp
    | some tok =>
      simp only [Option.getD_some]
      by_cases ht : tok = []
      · simp [ht]
      · rw [if_neg ht]
        constructor
        · intro h; injection h with h; exact ⟨tok, rfl, ht, h.symm⟩
        · rintro ⟨_, h1, _, rfl⟩; cases h1; rfl
  have hquery : OnlyFilter (ask r).query (utf8 (joined ',' r.filters)) := by
    unfold ask
    rw [joinComma_eq]
    exact encodeQuery_only _
  unfold handle at h ⊢
  simp only at h ⊢
  by_cases h0 : (!acceptsMimeType r.accept eventStream && !up) = true
  · rw [if_pos h0] at h; cases h
  · rw [if_neg h0] at h ⊢
    split at h
    · cases h
    · cases h
    · rename_i fs hp
      cases hns : Filter.newSubscriber (joinComma r.filters) (consent reply) with
      | panic => rw [hns] at h; cases h
      | error => rw [hns] at h; cases h
      | ok s' =>
        rw [hns] at h
        cases room with
        | false => simp at h
        | true =>
          simp only [if_true, Option.some.injEq] at h
          subst h
          cases hc : consent reply with
          | none => rw [hc, newSubscriber_none hp] at hns; cases hns
          | some v =>
            rw [hc] at hns
            obtain ⟨g1, g2, g3, g4, g5, g6⟩ := Filter.newSubscriber_ok hns
            have hr : ∃ body, reply = .answer 200 body (some v) := by
              unfold consent at hc
              split at hc
              · injection hc with hc; subst hc; exact ⟨_, rfl⟩
              · cases hc
            obtain ⟨body, hr⟩ := hr
            refine ⟨ask r, body, v, rfl, hr, hquery, hcookie, g1, g2, g3, g4, g5, ?_⟩
            intro ts hts
            rw [joinComma_eq] at g6
            have hne : r.filters ≠ [] := by
              intro e
              have : Understood r.filters := by
                rw [understood_iff]
                intro t ht
                obtain ⟨f, _, hf⟩ := Filter.forall₂_mem_left g6 ht
                exact ⟨f, (Filter.C41_accepts t f).mp hf⟩
              exact this.1 e
            rw [split_join_values _ hne] at g6
            have hfl : r.filters.flatMap (split ',') = ts.flatten := by
              clear g6 hne hquery hcookie
              generalize r.filters = vs at hts
              induction hts with
              | nil => rfl
              | cons hw _ ih =>
                obtain ⟨rfl, h1, h2⟩ := hw
                rw [List.flatMap_cons, List.flatten_cons, ih, Filter.split_joined h1 h2]
            rw [hfl] at g6
            exact Filter.forall₂_imp (fun t f => (Filter.C41_accepts t f).1) g6

/-- **C123**: what a subscriber of the endpoint gets (with C40): exactly the messages that one of the filters in its
request asks for and the frontend's answer lets through. -/
theorem C123_messages (r : Request) (up : Bool) (reply : Reply) (room : Bool) (s : Subscriber)
    (h : (handle r up reply room).subscriber = some s) (m : Filter.Message) :
    ∃ body v, reply = .answer 200 body (some v) ∧
      (s.accepts m = true ↔ ∃ w ∈ r.filters, ∃ ts, w = joined ',' ts ∧ (∀ t ∈ ts, ',' ∉ t) ∧
        ∃ t ∈ ts, ∃ f, Form t f ∧ Filter.Wanted v.user m f ∧ Filter.Allowed v m f) := by
  obtain ⟨a, body, v, _, hr, _, _, g1, g2, g3, g4, g5, g6⟩ := C123_judged r up reply room s h
  refine ⟨body, v, hr, ?_⟩
  have hts : List.Forall₂ (fun w t => w = joined ',' t ∧ t ≠ [] ∧ ∀ x ∈ t, ',' ∉ x) r.filters
      (r.filters.map (split ',')) := by
    generalize r.filters = vs
    induction vs with
    | nil => exact .nil
    | cons w vs ih =>
      obtain ⟨h1, h2⟩ := Filter.split_spec ',' w
      exact .cons ⟨h2.symm, Filter.split_ne_nil _ _, h1⟩ ih
  have g7 := g6 _ hts
  unfold Filter.Subscriber.accepts
  rw [List.any_eq_true]
  constructor
  · rintro ⟨f, hf, ha⟩
    obtain ⟨t, ht, hform⟩ := Filter.forall₂_mem_right g7 hf
    obtain ⟨l, hl, ht⟩ := List.mem_flatten.mp ht
    obtain ⟨w, hw, rfl⟩ := List.mem_map.mp hl
    obtain ⟨h1, h2⟩ := Filter.split_spec ',' w
    exact ⟨w, hw, _, h2.symm, h1, t, ht, f, hform, (Filter.accepts_iff m f g1 g2 g3 g4 g5).1 ha⟩
  · rintro ⟨w, hw, ts, rfl, hns, t, ht, f, hf, hwa⟩
    have hne : ts ≠ [] := by rintro rfl; cases ht
    have hmem : t ∈ (r.filters.map (split ',')).flatten := by
      refine List.mem_flatten.mpr ⟨_, List.mem_map.mpr ⟨_, hw, rfl⟩, ?_⟩
      rw [Filter.split_joined hne hns]; exact ht
    obtain ⟨f', hf', hform⟩ := Filter.forall₂_mem_left g7 hmem
    have : f' = f := by
      have e1 := Filter.newFilter_of_form hf
      have e2 := Filter.newFilter_of_form hform
      rw [e1] at e2; cases e2; rfl
    subst this
    exact ⟨f', hf', (Filter.accepts_iff m f' g1 g2 g3 g4 g5).2 hwa⟩

/-- Nobody is asked about filters that are not understood. -/
theorem C123_not_asked (r : Request) (up : Bool) (reply : Reply) (room : Bool)
    (h : (handle r up reply room).asked.isSome = true) : Understood r.filters := by
  rw [understood_iff]
  unfold handle at h
  simp only at h
  by_cases h0 : (!acceptsMimeType r.accept eventStream && !up) = true
  · rw [if_pos h0] at h; cases h
  · rw [if_neg h0] at h
    rw [joinComma_eq] at h
    rcases parse_cases (split ',' (joined ',' r.filters)) [] with ⟨h1, _⟩ | ⟨_, h3⟩ | ⟨_, h4⟩
    · exact h1
    · rw [h3] at h; cases h
    · rw [h4] at h; cases h

/-- A request with two values for `filter`. -/
def exRequest : Request where
  accept := ["text/event-stream".toList]
  ouat := some "tok".toList
  filters := ["/user/ana,/contest/omi".toList, "/problem/sumas".toList]

example : ∃ s, (handle exRequest false (.answer 200 [] (some { user := "ana".toList })) true).subscriber = some s ∧
    s.filters = [.user "ana".toList, .contest "omi".toList [], .problem "sumas".toList] := by
  have : ((handle exRequest false (.answer 200 [] (some { user := "ana".toList })) true).subscriber.map (·.filters))
      = some [.user "ana".toList, .contest "omi".toList [], .problem "sumas".toList] := by decide +kernel
  cases h : (handle exRequest false (.answer 200 [] (some { user := "ana".toList })) true).subscriber with
  | none => rw [h] at this; cases this
  | some s => rw [h] at this; injection this with this; exact ⟨s, rfl, this⟩

/-! ## C124: deauthentication -/

/-- The path of a request for a user, as the server decodes it. -/
def deauthPath (user : Text) : Text := "/deauthenticate/".toList ++ user

theorem deauthUser_path (u rest : Text) (h : '/' ∉ u) (hr : rest = [] ∨ ∃ p, rest = '/' :: p) :
    deauthUser (deauthPath (u ++ rest)) = some u := by
  unfold deauthUser deauthPath
  have e : "/deauthenticate/".toList ++ (u ++ rest) = [] ++ '/' :: ("deauthenticate".toList ++ '/' :: (u ++ rest)) := by
    have : "/deauthenticate/".toList = '/' :: ("deauthenticate".toList ++ ['/']) := by decide
    rw [this]; simp
  rw [e, Filter.split_cons _ (by simp), Filter.split_cons _ (by decide)]
  rcases hr with rfl | ⟨p, rfl⟩
  · rw [List.append_nil, Filter.split_single h]; rfl
  · rw [Filter.split_cons _ h]; rfl

/-- **C124** (partial): the subscribers that are removed are those of the user in the path, up to the first slash. What is
missing: names with a slash (`C124_slash`). -/
theorem C124_deauth_partial (u : Text) (h : '/' ∉ u) : deauthUser (deauthPath u) = some u := by
  have := deauthUser_path u [] h (Or.inl rfl)
  rwa [List.append_nil] at this

/-- **C124 is false for names with a slash**, however they are encoded: somebody else is meant. -/
theorem C124_slash (u rest : Text) (h : '/' ∉ u) :
    deauthUser (deauthPath (u ++ '/' :: rest)) = some u ∧ u ≠ u ++ '/' :: rest := by
  refine ⟨deauthUser_path u _ h (Or.inr ⟨rest, rfl⟩), ?_⟩
  intro e
  have := congrArg List.length e
  simp at this

/-- Requests that the server gives to this handler always have a user, perhaps the empty one: that of all subscribers who
are not logged in. -/
theorem C124_never_bad (u : Text) : (deauthUser (deauthPath u)).isSome = true ∧ deauthUser (deauthPath []) = some [] := by
  refine ⟨?_, C124_deauth_partial [] (by simp)⟩
  obtain ⟨h1, h2⟩ := Filter.split_spec '/' u
  cases hs : split '/' u with
  | nil => exact absurd hs (Filter.split_ne_nil _ _)
  | cons a as =>
    rw [hs] at h1 h2
    have ha : '/' ∉ a := h1 a List.mem_cons_self
    cases as with
    | nil =>
      have : u = a ++ [] := by rw [List.append_nil, ← h2]; rfl
      rw [this, deauthUser_path a [] ha (Or.inl rfl)]; rfl
    | cons b bs =>
      have : u = a ++ '/' :: joined '/' (b :: bs) := by rw [← h2]; rfl
      rw [this, deauthUser_path a _ ha (Or.inr ⟨_, rfl⟩)]; rfl

example : deauthUser "/deauthenticate/ana/x".toList = some "ana".toList := by decide +kernel

end Quark.Session
