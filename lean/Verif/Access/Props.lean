import Verif.Access.Routing

/-! # Theorems about routing and access (C165, C166) -/

namespace Quark.Access

open Quark.Path Spec

/-! ## C165 -/

/-- A request is handled by a page exactly if its path is tidy (or the method is CONNECT, for which paths are taken as
they are), is not the name of a directory that lacks its slash, and belongs to the page: the page with the longest text
among those the port offers for the path. -/
theorem C165_handled (port : Port) (r : Request) (h : Page) :
    serveMux (table port) r = .run h ↔
      r.star = false ∧ (r.connect = true ∨ Tidy r.path) ∧ ¬ NeedsSlash port r.path ∧ Belongs port r.path h := by
  have hf : ∀ p, found (table port) p = .run h ↔ Belongs port p h := by
    intro p
    rw [← select_belongs]
    unfold found
    cases select (table port) p <;> simp
  unfold serveMux
  by_cases hs : r.star = true
  · simp [hs]
  · rw [if_neg hs]
    simp only [Bool.not_eq_true] at hs
    by_cases hc : r.connect = true
    · rw [if_pos hc]
      by_cases hm : slashMissing (table port) r.path = true
      · rw [if_pos hm]
        simp [slashMissing_iff.1 hm]
      · rw [if_neg hm, hf]
        have hn : ¬ NeedsSlash port r.path := fun hn => hm (slashMissing_iff.2 hn)
        simp [hs, hc, hn]
    · rw [if_neg hc]
      dsimp only
      by_cases hm : slashMissing (table port) (cleanPath r.path) = true
      · rw [if_pos hm]
        constructor
        · simp
        · rintro ⟨_, ht, hn, _⟩
          rcases ht with ht | ht
          · exact absurd ht hc
          · rw [cleanPath_eq_iff.2 ht] at hm
            exact absurd (slashMissing_iff.1 hm) hn
      · rw [if_neg hm]
        by_cases he : cleanPath r.path = r.path
        · rw [if_neg (by simp [he]), hf]
          rw [he] at hm
          have hn : ¬ NeedsSlash port r.path := fun hn => hm (slashMissing_iff.2 hn)
          simp [hs, cleanPath_eq_iff.1 he, hn]
        · rw [if_pos he]
          have ht : ¬ Tidy r.path := fun ht => he (cleanPath_eq_iff.2 ht)
          simp [hc, ht]

/-- 404 exactly if the path is tidy (or the method CONNECT) and no page has it. -/
theorem C165_not_found (port : Port) (r : Request) :
    serveMux (table port) r = .notFound ↔
      r.star = false ∧ (r.connect = true ∨ Tidy r.path) ∧ ¬ NeedsSlash port r.path ∧
        ∀ o h, (o, h) ∈ offers port → ¬ o.Has r.path := by
  have hf : ∀ p, found (table port) p = .notFound ↔ ∀ o h, (o, h) ∈ offers port → ¬ o.Has p := by
    intro p
    have : found (table port) p = .notFound ↔ select (table port) p = none := by
      unfold found
      cases select (table port) p <;> simp
    rw [this, select_none, table_offers]
    constructor
    · intro h o g ho hh
      exact h _ (List.mem_map.2 ⟨(o, g), ho, rfl⟩) ((has_iff (x := (o, g)) ho).2 hh)
    · intro h e he ha
      obtain ⟨x, hx, rfl⟩ := List.mem_map.1 he
      exact h x.1 x.2 hx ((has_iff hx).1 ha)
  unfold serveMux
  by_cases hs : r.star = true
  · simp [hs]
  · rw [if_neg hs]
    simp only [Bool.not_eq_true] at hs
    by_cases hc : r.connect = true
    · rw [if_pos hc]
      by_cases hm : slashMissing (table port) r.path = true
      · rw [if_pos hm]
        simp [slashMissing_iff.1 hm]
      · rw [if_neg hm, hf]
        have hn : ¬ NeedsSlash port r.path := fun hn => hm (slashMissing_iff.2 hn)
        simp [hs, hc, hn]
    · rw [if_neg hc]
      dsimp only
      by_cases hm : slashMissing (table port) (cleanPath r.path) = true
      · rw [if_pos hm]
        constructor
        · simp
        · rintro ⟨_, ht, hn, _⟩
          rcases ht with ht | ht
          · exact absurd ht hc
          · rw [cleanPath_eq_iff.2 ht] at hm
            exact absurd (slashMissing_iff.1 hm) hn
      · rw [if_neg hm]
        by_cases he : cleanPath r.path = r.path
        · rw [if_neg (by simp [he]), hf]
          rw [he] at hm
          have hn : ¬ NeedsSlash port r.path := fun hn => hm (slashMissing_iff.2 hn)
          simp [hs, cleanPath_eq_iff.1 he, hn]
        · rw [if_pos he]
          have ht : ¬ Tidy r.path := fun ht => he (cleanPath_eq_iff.2 ht)
          simp [hc, ht]

theorem tidy_slash {port : Port} {p : List Char} (h : NeedsSlash port p) : Tidy (p ++ ['/']) := by
  obtain ⟨_, o, g, ho, he⟩ := h
  rw [show p ++ ['/'] = p ++ "/".toList from rfl, ← he]
  have : ∀ port, ∀ x ∈ offers port, cleanPath x.1.text.toList = x.1.text.toList := by
    intro port; cases port <;> decide +kernel
  exact cleanPath_eq_iff.1 (this port (o, g) ho)

theorem not_needs_twice {port : Port} {p : List Char} : ¬ NeedsSlash port (p ++ ['/']) := by
  rintro ⟨_, o, h, ho, he⟩
  have := offers_double port (o, h) ho
  simp only [he] at this
  rw [show "/".toList = ['/'] from rfl, List.dropLast_concat] at this
  simp at this

/-- A redirection leads to the same place by a tidy path, and is the last one: the client then gets an answer. (With
CONNECT only a missing slash is a reason for a redirection.) -/
theorem C165_moved (port : Port) (r : Request) (q : List Char) (h : serveMux (table port) r = .moved q) :
    Tidy q ∧ place q = place r.path ∧ q ≠ r.path ∧
      ∀ q', serveMux (table port) { r with path := q } ≠ .moved q' := by
  have settled : ∀ q, Tidy q → ¬ NeedsSlash port q →
      ∀ q', serveMux (table port) { r with path := q } ≠ .moved q' := by
    intro q ht hn q'
    have hm : ¬ slashMissing (table port) q = true := fun h => hn (slashMissing_iff.1 h)
    have hfound : ∀ p, found (table port) p ≠ .moved q' := by
      intro p; unfold found; cases select (table port) p <;> simp
    unfold serveMux
    dsimp only
    rw [cleanPath_eq_iff.2 ht]
    by_cases hs : r.star = true
    · simp [hs]
    · rw [if_neg hs]
      by_cases hc : r.connect = true
      · rw [if_pos hc, if_neg hm]; exact hfound _
      · rw [if_neg hc, if_neg hm, if_neg (by simp)]; exact hfound _
  have hfound : ∀ p, found (table port) p ≠ .moved q := by
    intro p; unfold found; cases select (table port) p <;> simp
  unfold serveMux at h
  by_cases hs : r.star = true
  · simp [hs] at h
  · rw [if_neg hs] at h
    by_cases hc : r.connect = true
    · rw [if_pos hc] at h
      by_cases hm : slashMissing (table port) r.path = true
      · rw [if_pos hm] at h
        simp only [Answer.moved.injEq] at h
        subst h
        exact ⟨tidy_slash (slashMissing_iff.1 hm), place_slash _, by simp,
          settled _ (tidy_slash (slashMissing_iff.1 hm)) not_needs_twice⟩
      · rw [if_neg hm] at h
        exact absurd h (hfound _)
    · rw [if_neg hc] at h
      dsimp only at h
      by_cases hm : slashMissing (table port) (cleanPath r.path) = true
      · rw [if_pos hm] at h
        simp only [Answer.moved.injEq] at h
        have ht := tidy_slash (slashMissing_iff.1 hm)
        subst h
        refine ⟨ht, by rw [place_slash, place_cleanPath], ?_, settled _ ht not_needs_twice⟩
        intro he
        have := cleanPath_eq_iff.2 ht
        rw [he] at this
        rw [this] at he
        simp at he
      · rw [if_neg hm] at h
        by_cases he : cleanPath r.path = r.path
        · rw [if_neg (by simp [he])] at h
          exact absurd h (hfound _)
        · rw [if_pos he] at h
          simp only [Answer.moved.injEq] at h
          subst h
          exact ⟨cleanPath_tidy _, place_cleanPath _, he,
            settled _ (cleanPath_tidy _) (fun hn => hm (slashMissing_iff.2 hn))⟩

theorem below_comparable {a b p : List Char} (h1 : a <+: p) (h2 : b <+: p) : a <+: b ∨ b <+: a := by
  rcases Nat.le_total a.length b.length with h | h
  · exact .inl (List.prefix_of_prefix_length_le h1 h2 h)
  · exact .inr (List.prefix_of_prefix_length_le h2 h1 h)

/-- Whatever is sent to the public port of the grader, with whatever method, only the pages for ephemeral runs and for
CI are run. -/
theorem C165_public (r : Request) (h : Page) (hr : serveMux (table .graderPublic) r = .run h) :
    (h = .ephemeral ∧ "/ephemeral/run/".toList <+: r.path) ∨ (h = .ci ∧ "/ci/".toList <+: r.path) := by
  obtain ⟨o, ho, hh, _⟩ := ((C165_handled _ _ _).1 hr).2.2.2
  simp only [offers, publicOffers, List.mem_cons, Prod.mk.injEq, List.not_mem_nil, or_false] at ho
  rcases ho with ⟨rfl, rfl⟩ | ⟨rfl, rfl⟩
  · exact .inl ⟨rfl, hh⟩
  · exact .inr ⟨rfl, hh⟩

/-- On the port for runners a path below /run/ is for results exactly if it is not below /run/request/. -/
theorem C165_results (r : Request) (hs : r.star = false) (ht : Tidy r.path) :
    (serveMux (table .graderRunner) r = .run .results ↔
      "/run/".toList <+: r.path ∧ r.path ≠ "/run/request".toList ∧ ¬ "/run/request/".toList <+: r.path) ∧
    (serveMux (table .graderRunner) r = .run .requestRun ↔ "/run/request/".toList <+: r.path) := by
  have hslash : ∀ p, "/run/".toList <+: p → (NeedsSlash .graderRunner p ↔ p = "/run/request".toList) := by
    intro p hp
    constructor
    · rintro ⟨_, o, h, ho, he⟩
      simp only [offers, runnerOffers, List.mem_cons, Prod.mk.injEq, List.not_mem_nil, or_false] at ho
      rcases ho with ⟨rfl, rfl⟩ | ⟨rfl, rfl⟩ | ⟨rfl, rfl⟩ | ⟨rfl, rfl⟩
      · have : p = "/monitoring/benchmark".toList := by
          have := congrArg List.dropLast he
          rw [show "/".toList = ['/'] from rfl, List.dropLast_concat] at this
          exact this.symm.trans (by decide)
        rw [this] at hp; exact absurd hp (by decide)
      · have := congrArg List.dropLast he
        rw [show "/".toList = ['/'] from rfl, List.dropLast_concat] at this
        exact this.symm.trans (by decide)
      · have h2 : p = "/run".toList := by
          have := congrArg List.dropLast he
          rw [show "/".toList = ['/'] from rfl, List.dropLast_concat] at this
          exact this.symm.trans (by decide)
        rw [h2] at hp; exact absurd hp (by decide)
      · have h2 : p = "/input".toList := by
          have := congrArg List.dropLast he
          rw [show "/".toList = ['/'] from rfl, List.dropLast_concat] at this
          exact this.symm.trans (by decide)
        rw [h2] at hp; exact absurd hp (by decide)
    · rintro rfl
      exact ⟨by decide, .below "/run/request/", .requestRun, by simp [offers, runnerOffers], by decide⟩
  have hlong : "/run/".toList <+: "/run/request/".toList := by decide
  constructor
  · rw [C165_handled]
    constructor
    · rintro ⟨_, _, hn, o, ho, hh, hmax⟩
      simp only [offers, runnerOffers, List.mem_cons, Prod.mk.injEq, List.not_mem_nil, or_false, reduceCtorEq,
        and_false, false_or] at ho
      obtain ⟨rfl, _⟩ := ho
      refine ⟨hh, fun he => hn ((hslash _ hh).2 he), fun hq => ?_⟩
      have := hmax (.below "/run/request/") .requestRun (by simp [offers, runnerOffers]) hq
      exact absurd this (by decide)
    · rintro ⟨hh, hne, hq⟩
      refine ⟨hs, .inr ht, fun hn => hne ((hslash _ hh).1 hn), .below "/run/", by simp [offers, runnerOffers], hh, ?_⟩
      intro o' h' ho' hh'
      simp only [offers, runnerOffers, List.mem_cons, Prod.mk.injEq, List.not_mem_nil, or_false] at ho'
      rcases ho' with ⟨rfl, rfl⟩ | ⟨rfl, rfl⟩ | ⟨rfl, rfl⟩ | ⟨rfl, rfl⟩
      · exfalso
        have := below_comparable (show "/monitoring/benchmark/".toList <+: r.path from hh') hh
        exact absurd this (by decide)
      · exact absurd hh' hq
      · exact Nat.le_refl _
      · exfalso
        have := below_comparable (show "/input/".toList <+: r.path from hh') hh
        exact absurd this (by decide)
  · rw [C165_handled]
    constructor
    · rintro ⟨_, _, hn, o, ho, hh, hmax⟩
      simp only [offers, runnerOffers, List.mem_cons, Prod.mk.injEq, List.not_mem_nil, or_false, reduceCtorEq,
        and_false, false_or] at ho
      obtain ⟨rfl, _⟩ := ho
      exact hh
    · intro hq
      refine ⟨hs, .inr ht, fun hn => ?_, .below "/run/request/", by simp [offers, runnerOffers], hq, ?_⟩
      · have := (hslash _ (hlong.trans hq)).1 hn
        rw [this] at hq; exact absurd hq (by decide)
      · intro o' h' ho' hh'
        simp only [offers, runnerOffers, List.mem_cons, Prod.mk.injEq, List.not_mem_nil, or_false] at ho'
        rcases ho' with ⟨rfl, rfl⟩ | ⟨rfl, rfl⟩ | ⟨rfl, rfl⟩ | ⟨rfl, rfl⟩
        · exfalso
          have := below_comparable (show "/monitoring/benchmark/".toList <+: r.path from hh') hq
          exact absurd this (by decide)
        · exact Nat.le_refl _
        · decide
        · decide

def Offer.isExact : Offer → Bool
  | .below _ => false
  | .exactly _ => true

theorem shared_offers : ∀ p1 ∈ [Port.graderPublic, .graderRunner, .graderFrontend, .metrics, .broadcastApi, .broadcastEvents],
    ∀ p2 ∈ [Port.graderPublic, .graderRunner, .graderFrontend, .metrics, .broadcastApi, .broadcastEvents],
    p1 ≠ p2 → ∀ x ∈ offers p1, ∀ y ∈ offers p2, x.2 = y.2 →
      (x.2 = .metrics ∧ x.1.text.toList = "/metrics".toList ∧ Offer.isExact x.1 = true) ∨
      ((x.2 = .vars ∨ x.2 = .pprof) ∧ "/debug/".toList <+: x.1.text.toList ∧
        (p1 = .graderFrontend ∧ p2 = .broadcastApi ∨ p1 = .broadcastApi ∧ p2 = .graderFrontend)) := by
  decide +kernel

theorem has_prefix {o : Offer} {p : List Char} (h : o.Has p) : o.text.toList <+: p := by
  cases o with
  | below t => exact h
  | exactly t => rw [show p = t.toList from h]; exact List.prefix_refl _

/-- Every page but `metrics` and the debugging pages is run on one port only. -/
theorem C165_one_port (p1 p2 : Port) (r1 r2 : Request) (h : Page) (h1 : serveMux (table p1) r1 = .run h)
    (h2 : serveMux (table p2) r2 = .run h) (hne : p1 ≠ p2) :
    (h = .metrics ∧ r1.path = "/metrics".toList) ∨
      ((h = .vars ∨ h = .pprof) ∧ "/debug/".toList <+: r1.path ∧
        (p1 = .graderFrontend ∧ p2 = .broadcastApi ∨ p1 = .broadcastApi ∧ p2 = .graderFrontend)) := by
  obtain ⟨o, ho, hh, _⟩ := ((C165_handled _ _ _).1 h1).2.2.2
  obtain ⟨o', ho', _, _⟩ := ((C165_handled _ _ _).1 h2).2.2.2
  have hall : ∀ p : Port, p ∈ [Port.graderPublic, .graderRunner, .graderFrontend, .metrics, .broadcastApi, .broadcastEvents] := by
    intro p; cases p <;> simp
  rcases shared_offers p1 (hall _) p2 (hall _) hne (o, h) ho (o', h) ho' rfl with ⟨hm, ht, hx⟩ | ⟨hm, ht, hp⟩
  · refine .inl ⟨hm, ?_⟩
    cases o with
    | below t => simp [Offer.isExact] at hx
    | exactly t => rw [show r1.path = t.toList from hh]; exact ht
  · exact .inr ⟨hm, ht.trans (has_prefix hh), hp⟩

/-! ### Examples -/

-- a page below /run/ that is not a request for a run, and one that is
example : serveMux (table .graderRunner) { path := "/run/17/results/".toList } = .run .results := by decide +kernel
example : serveMux (table .graderRunner) { path := "/run/request/".toList } = .run .requestRun := by decide +kernel
-- the name of a directory without its slash, and a path that goes back
example : serveMux (table .graderRunner) { path := "/run/request".toList } = .moved "/run/request/".toList := by
  decide +kernel
example : serveMux (table .graderPublic) { path := "/ci/../../run//new/./".toList } = .moved "/run/new/".toList := by
  decide +kernel
-- which the public port does not have
example : serveMux (table .graderPublic) { path := "/run/new/".toList } = .notFound := by decide +kernel
-- CONNECT hands a path that goes back to the page
example : serveMux (table .graderPublic) { connect := true, path := "/ci/../x".toList } = .run .ci := by decide +kernel
-- the page with the configuration
example : serveMux (table .graderFrontend) { path := "/debug/vars".toList } = .run .vars := by decide +kernel
example : serveMux (table .graderFrontend) { path := "/debug/pprof/heap".toList } = .run .pprof := by decide +kernel
example : serveMux (table .broadcastApi) { path := "/debug/vars".toList } = .run .vars := by decide +kernel
-- the hypotheses of the theorems above
example : serveMux (table .graderPublic) { path := "/ephemeral/run/new/".toList } = .run .ephemeral := by decide +kernel
example : Tidy "/run/17/results/".toList := cleanPath_eq_iff.1 (by decide +kernel)

/-! ## C166 -/

/-- Unless TLS was turned off for it, a port runs a page only for a client that shows a certificate issued by the
port's own. -/
theorem C166_certificate (ca : Port → Nat) (f : Flags) (port : Port) (hs : Secured f port) (c : Conn) (r : Request)
    (a : Answer) (h : serve ca f port c r = some a) :
    ∃ own others, c = .tls (own :: others) ∧ own.issuer = ca port := by
  have hp : plain f port = false := by
    cases port <;> simp_all [Secured, plain]
  cases c with
  | clear => simp [serve, accept, hp] at h
  | tls certs =>
    cases certs with
    | nil => simp [serve, accept, hp] at h
    | cons own others =>
      by_cases hi : own.issuer = ca port
      · exact ⟨own, others, rfl, hi⟩
      · simp [serve, accept, hp, hi] at h

/-- Such a client is answered as `C165` says, whoever it is otherwise. -/
theorem C166_admitted (ca : Port → Nat) (f : Flags) (port : Port) (hs : Secured f port) (own : Cert)
    (others : List Cert) (hi : own.issuer = ca port) (r : Request) :
    serve ca f port (.tls (own :: others)) r = some (serveMux (table port) r) := by
  have hp : plain f port = false := by
    cases port <;> simp_all [Secured, plain]
  simp [serve, accept, hp, hi]

/-- Where TLS was turned off, and on the port for metrics, anybody is answered. -/
theorem C166_open (ca : Port → Nat) (f : Flags) (port : Port) (hs : ¬ Secured f port) (r : Request) :
    serve ca f port .clear r = some (serveMux (table port) r) := by
  have hp : plain f port = true := by
    cases port <;> simp_all [Secured, plain]
  simp [serve, accept, hp]

/-- The configuration, with its passwords, and the profiler are shown by the ports for the other programs only: never
by the public ports or the ports for metrics and for runners. -/
theorem C166_debug (ca : Port → Nat) (f : Flags) (port : Port) (c : Conn) (r : Request) (h : Page)
    (hh : h = .vars ∨ h = .pprof) (hr : serve ca f port c r = some (.run h)) :
    (port = .graderFrontend ∨ port = .broadcastApi) ∧
      (Secured f port → ∃ own others, c = .tls (own :: others) ∧ own.issuer = ca port) := by
  refine ⟨?_, fun hs => C166_certificate ca f port hs c r _ hr⟩
  obtain ⟨x, _, hx⟩ := Option.map_eq_some_iff.1 hr
  obtain ⟨o, ho, _, _⟩ := ((C165_handled _ _ _).1 hx).2.2.2
  have : ∀ p ∈ [Port.graderPublic, .graderRunner, .graderFrontend, .metrics, .broadcastApi, .broadcastEvents],
      ∀ y ∈ offers p, (y.2 = .vars ∨ y.2 = .pprof) → p = .graderFrontend ∨ p = .broadcastApi := by decide +kernel
  exact this port (by cases port <;> simp) (o, h) ho hh

/-- The name under which the grader knows a runner exists for every request that a page of the runners' port gets: it
is the name in the certificate that was checked, or the address if TLS was turned off. -/
theorem C166_name (ca : Port → Nat) (f : Flags) (c : Conn) (peer : Option (List Cert)) (addr : String)
    (h : accept ca f .graderRunner c = some peer) :
    (f.graderInsecure = true → peerName f addr peer = some addr) ∧
    (f.graderInsecure = false → ∃ own others, c = .tls (own :: others) ∧ own.issuer = ca .graderRunner ∧
      peerName f addr peer = some own.name) := by
  constructor
  · intro hi; simp [peerName, hi]
  · intro hi
    cases c with
    | clear => simp [accept, plain, hi] at h
    | tls certs =>
      cases certs with
      | nil => simp [accept, plain, hi] at h
      | cons own others =>
        by_cases hj : own.issuer = ca .graderRunner
        · simp only [accept, plain, hi, hj, if_true, Bool.false_eq_true, if_false, Option.some.injEq] at h
          subst h
          exact ⟨own, others, rfl, hj, by simp [peerName, hi]⟩
        · simp [accept, plain, hi, hj] at h

-- a runner with a certificate, one without, and a grader started with -insecure
example : serve (fun _ => 7) {} .graderRunner (.tls [⟨"runner1", 7⟩]) { path := "/run/request/".toList } =
    some (.run .requestRun) := by decide +kernel
example : serve (fun _ => 7) {} .graderRunner (.tls [⟨"runner1", 8⟩]) { path := "/run/request/".toList } = none := by
  decide +kernel
example : serve (fun _ => 7) {} .graderFrontend .clear { path := "/debug/vars".toList } = none := by decide +kernel
example : serve (fun _ => 7) { graderInsecure := true } .graderFrontend .clear { path := "/debug/vars".toList } =
    some (.run .vars) := by decide +kernel
example : accept (fun _ => 7) {} .graderRunner (.tls [⟨"runner1", 7⟩]) = some (some [⟨"runner1", 7⟩]) := by
  decide +kernel
example : Secured {} .graderRunner := rfl

end Quark.Access
