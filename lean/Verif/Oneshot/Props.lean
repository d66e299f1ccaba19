import Verif.Oneshot.Model
import Mathlib.Data.List.Nodup

/-! Property C152: the runner in one-shot mode. -/
namespace Quark.Oneshot

/-! ### Specification -/

/-- The run that the command line asks for. -/
inductive Asked {σ ρ : Type} (w : World σ ρ) (ofF : ℚ → ℚ) (f : Flags) : Run → Prop
  /-- the one in the request, which has priority, with debugging if the command line says so -/
  | byRequest (r : Run) : f.request ≠ [] → w.readRequest f.request = some r →
      Asked w ofF f { r with inputHash := "0000000000000000000000000000000000000000".toList, debug := r.debug || f.debug }
  /-- the program in the file, for 100 points, in the language that its name ends in -/
  | bySource (b : Bytes) (pre lang : Text) : f.request = [] → w.readSource f.source = some b →
      f.source = pre ++ '.' :: lang → '.' ∉ lang → '/' ∉ lang →
      Asked w ofF f ⟨0, b, lang, [], "0000000000000000000000000000000000000000".toList, some (ofF 100), f.debug⟩

/-- The directory with the entries `l` has a file with the content `c` at the path `p`. -/
inductive HasFile : List (Text × Node) → RelPath → Bytes → Prop
  | here {l n c} : (n, Node.file c) ∈ l → HasFile l [n] c
  | inside {l n ch p c} : (n, Node.dir ch) ∈ l → HasFile ch p c → HasFile l (n :: p) c

/-- It has a named pipe at the path `p`. -/
inductive HasPipe : List (Text × Node) → RelPath → Prop
  | here {l n} : (n, Node.pipe) ∈ l → HasPipe l [n]
  | inside {l n ch p} : (n, Node.dir ch) ∈ l → HasPipe ch p → HasPipe l (n :: p)

/-- No directory has two entries of the same name. -/
inductive Proper : List (Text × Node) → Prop
  | intro {l} : (l.map Prod.fst).Nodup → (∀ n ch, (n, Node.dir ch) ∈ l → Proper ch) → Proper l

/-! ### Proofs -/

theorem extRev_spec (l acc : Text) :
    (extRev l acc = [] ↔ ∃ a b, l = a ++ b ∧ '.' ∉ a ∧ '/' ∉ a ∧ (b = [] ∨ ∃ b', b = '/' :: b')) ∧
    (∀ e, extRev l acc = e → e ≠ [] → ∃ a b, l = a ++ '.' :: b ∧ '.' ∉ a ∧ '/' ∉ a ∧ e = '.' :: (a.reverse ++ acc)) := by
  induction l generalizing acc with
  | nil =>
    refine ⟨?_, ?_⟩
    · simp [extRev]
    · intro e h hne; simp [extRev] at h; exact absurd h.symm (by simpa using hne)
  | cons c l ih =>
    by_cases h1 : c = '/'
    · subst h1
      simp only [extRev, if_true]
      refine ⟨⟨fun _ => ⟨[], '/' :: l, by simp⟩, fun _ => by trivial⟩, fun e h hne => absurd h.symm hne⟩
    · by_cases h2 : c = '.'
      · subst h2
        rw [extRev, if_neg h1, if_pos rfl]
        refine ⟨⟨fun h => by simp at h, ?_⟩, ?_⟩
        · rintro ⟨a, b, he, ha, hs, hb⟩
          exfalso
          cases a with
          | nil =>
            rcases hb with rfl | ⟨b', rfl⟩
            · simp at he
            · simp at he
          | cons x a => simp at he ha; exact ha.1 he.1
        · rintro e rfl -
          exact ⟨[], l, by simp⟩
      · rw [extRev, if_neg h1, if_neg h2]
        obtain ⟨i1, i2⟩ := ih (c :: acc)
        refine ⟨i1.trans ⟨?_, ?_⟩, ?_⟩
        · rintro ⟨a, b, rfl, ha, hs, hb⟩
          exact ⟨c :: a, b, by simp, by simp [ha, Ne.symm h2], by simp [hs, Ne.symm h1], hb⟩
        · rintro ⟨a, b, he, ha, hs, hb⟩
          cases a with
          | nil =>
            exfalso
            rcases hb with rfl | ⟨b', rfl⟩
            · simp at he
            · simp at he; exact h1 he.1
          | cons x a =>
            simp only [List.cons_append, List.cons.injEq] at he
            exact ⟨a, b, he.2, by simp at ha; exact ha.2, by simp at hs; exact hs.2, hb⟩
        · intro e he hne
          obtain ⟨a, b, e1, e2, e3, e4⟩ := i2 e he hne
          exact ⟨c :: a, b, by simp [e1], by simp [e2, Ne.symm h2], by simp [e3, Ne.symm h1], by simp [e4]⟩

theorem ext_spec (p lang : Text) :
    ext p = '.' :: lang ↔ ∃ pre, p = pre ++ '.' :: lang ∧ '.' ∉ lang ∧ '/' ∉ lang := by
  obtain ⟨h1, h2⟩ := extRev_spec p.reverse []
  constructor
  · intro h
    obtain ⟨a, b, e1, e2, e3, e4⟩ := h2 _ h (by simp)
    simp only [List.append_nil, List.cons.injEq, true_and] at e4
    subst e4
    refine ⟨b.reverse, ?_, by simpa using e2, by simpa using e3⟩
    have := congrArg List.reverse e1
    simpa using this
  · rintro ⟨pre, rfl, hd, hs⟩
    have hall : ∀ (a acc b : Text), '.' ∉ a → '/' ∉ a → extRev (a ++ '.' :: b) acc = '.' :: (a.reverse ++ acc) := by
      intro a
      induction a with
      | nil => intro acc b _ _; simp [extRev]
      | cons x a ih =>
        intro acc b ha hs
        simp only [List.mem_cons, not_or] at ha hs
        rw [List.cons_append, extRev, if_neg (Ne.symm hs.1), if_neg (Ne.symm ha.1), ih _ _ ha.2 hs.2]
        simp
    have := hall lang.reverse [] pre.reverse (by simpa using hd) (by simpa using hs)
    simp only [List.reverse_reverse, List.append_nil] at this
    rw [ext, List.reverse_append, List.reverse_cons, List.append_assoc]
    exact this

theorem ext_shape (p : Text) : ext p = [] ∨ ∃ lang, ext p = '.' :: lang := by
  rcases he : ext p with _ | ⟨c, l⟩
  · exact Or.inl rfl
  · obtain ⟨a, b, -, -, -, e4⟩ := (extRev_spec p.reverse []).2 (c :: l) he (by simp)
    exact Or.inr ⟨_, e4⟩

theorem theRun_iff {σ ρ : Type} (w : World σ ρ) (ofF : ℚ → ℚ) (f : Flags) (run : Run) (hin : f.input ≠ [])
    (hempty : w.readSource [] = none) :
    theRun w ofF f = some run ↔ Asked w ofF f run := by
  have hz : inputHash = "0000000000000000000000000000000000000000".toList := by decide +kernel
  unfold theRun
  rw [if_neg hin]
  simp only
  constructor
  · intro h
    simp only [Option.map_eq_some_iff] at h
    obtain ⟨r, h1, rfl⟩ := h
    by_cases hr : f.request ≠ []
    · rw [if_pos hr] at h1
      have := Asked.byRequest (w := w) (ofF := ofF) (f := f) r hr h1
      rw [hz]
      cases hf : f.debug <;> simp only [hf, Bool.or_false, Bool.or_true] at this ⊢ <;> exact this
    · rw [if_neg hr] at h1
      by_cases hs : f.source ≠ []
      · rw [if_pos hs] at h1
        cases hb : w.readSource f.source with
        | none => rw [hb] at h1; cases h1
        | some b =>
          rw [hb] at h1
          simp only at h1
          rcases ext_shape f.source with he | ⟨lang, he⟩
          · rw [he] at h1; cases h1
          · rw [he] at h1
            obtain rfl := Option.some.inj h1
            obtain ⟨pre, hp, hd, hsl⟩ := (ext_spec _ _).mp he
            have := Asked.bySource (w := w) (ofF := ofF) (f := f) b pre lang (by simpa using hr) hb hp hd hsl
            rw [hz]
            cases hf : f.debug <;> simp only [hf] at this ⊢ <;> exact this
      · rw [if_neg hs] at h1; cases h1
  · intro h
    cases h with
    | byRequest r hr h1 =>
      rw [if_pos hr, h1, hz]
      cases hf : f.debug <;> simp
    | bySource b pre lang hr h1 hp hd hsl =>
      have hs : f.source ≠ [] := by intro hs; rw [hs, hempty] at h1; cases h1
      rw [if_neg (by simp [hr]), if_pos hs, h1, (ext_spec _ _).mpr ⟨pre, hp, hd, hsl⟩, hz]
      cases hf : f.debug <;> simp

mutual
theorem mem_walk (p : RelPath) (e : Entry) : ∀ (x : Node) (at_ : RelPath), (p, e) ∈ walk at_ x ↔
    (∃ c, x = .file c ∧ p = at_ ∧ e = .file c) ∨ (x = .pipe ∧ p = at_ ∧ e = .pipe) ∨
    (∃ ch q, x = .dir ch ∧ p = at_ ++ q ∧ ((∃ c, e = .file c ∧ HasFile ch q c) ∨ (e = .pipe ∧ HasPipe ch q)))
  | .file c, at_ => by simp [walk]
  | .pipe, at_ => by simp [walk]
  | .dir ch, at_ => by
    rw [walk, mem_walkAll p e ch at_]
    constructor
    · rintro ⟨q, h1, h2⟩; exact Or.inr (Or.inr ⟨ch, q, rfl, h1, h2⟩)
    · rintro (⟨c, h, -⟩ | ⟨h, -⟩ | ⟨ch', q, h, h1, h2⟩)
      · cases h
      · cases h
      · cases h; exact ⟨q, h1, h2⟩
theorem mem_walkAll (p : RelPath) (e : Entry) : ∀ (l : List (Text × Node)) (at_ : RelPath), (p, e) ∈ walkAll at_ l ↔
    ∃ q, p = at_ ++ q ∧ ((∃ c, e = .file c ∧ HasFile l q c) ∨ (e = .pipe ∧ HasPipe l q))
  | [], at_ => by
    simp only [walkAll, List.not_mem_nil, false_iff]
    rintro ⟨q, -, (⟨c, -, h⟩ | ⟨-, h⟩)⟩ <;> cases h <;> simp_all
  | (n, x) :: rest, at_ => by
    have hfile : ∀ q c, HasFile ((n, x) :: rest) q c ↔ (q = [n] ∧ x = .file c) ∨
        (∃ ch q', q = n :: q' ∧ x = .dir ch ∧ HasFile ch q' c) ∨ HasFile rest q c := by
      intro q c
      constructor
      · intro h
        cases h with
        | here h =>
          rcases List.mem_cons.mp h with h | h
          · obtain ⟨rfl, rfl⟩ := Prod.mk.inj h; exact Or.inl ⟨rfl, rfl⟩
          · exact Or.inr (Or.inr (.here h))
        | inside h h' =>
          rcases List.mem_cons.mp h with h | h
          · obtain ⟨rfl, rfl⟩ := Prod.mk.inj h; exact Or.inr (Or.inl ⟨_, _, rfl, rfl, h'⟩)
          · exact Or.inr (Or.inr (.inside h h'))
      · rintro (⟨rfl, rfl⟩ | ⟨ch, q', rfl, rfl, h⟩ | h)
        · exact .here (by simp)
        · exact .inside (by simp) h
        · cases h with
          | here h => exact .here (by simp [h])
          | inside h h' => exact .inside (by simp [h]) h'
    have hpipe : ∀ q, HasPipe ((n, x) :: rest) q ↔ (q = [n] ∧ x = .pipe) ∨
        (∃ ch q', q = n :: q' ∧ x = .dir ch ∧ HasPipe ch q') ∨ HasPipe rest q := by
      intro q
      constructor
      · intro h
        cases h with
        | here h =>
          rcases List.mem_cons.mp h with h | h
          · obtain ⟨rfl, rfl⟩ := Prod.mk.inj h; exact Or.inl ⟨rfl, rfl⟩
          · exact Or.inr (Or.inr (.here h))
        | inside h h' =>
          rcases List.mem_cons.mp h with h | h
          · obtain ⟨rfl, rfl⟩ := Prod.mk.inj h; exact Or.inr (Or.inl ⟨_, _, rfl, rfl, h'⟩)
          · exact Or.inr (Or.inr (.inside h h'))
      · rintro (⟨rfl, rfl⟩ | ⟨ch, q', rfl, rfl, h⟩ | h)
        · exact .here (by simp)
        · exact .inside (by simp) h
        · cases h with
          | here h => exact .here (by simp [h])
          | inside h h' => exact .inside (by simp [h]) h'
    rw [walkAll, List.mem_append, mem_walk p e x (at_ ++ [n]), mem_walkAll p e rest at_]
    constructor
    · rintro ((⟨c, rfl, rfl, rfl⟩ | ⟨rfl, rfl, rfl⟩ | ⟨ch, q, rfl, rfl, h⟩) | ⟨q, rfl, h⟩)
      · exact ⟨[n], rfl, Or.inl ⟨c, rfl, (hfile _ _).mpr (Or.inl ⟨rfl, rfl⟩)⟩⟩
      · exact ⟨[n], rfl, Or.inr ⟨rfl, (hpipe _).mpr (Or.inl ⟨rfl, rfl⟩)⟩⟩
      · refine ⟨n :: q, by simp, ?_⟩
        rcases h with ⟨c, rfl, h⟩ | ⟨rfl, h⟩
        · exact Or.inl ⟨c, rfl, (hfile _ _).mpr (Or.inr (Or.inl ⟨ch, q, rfl, rfl, h⟩))⟩
        · exact Or.inr ⟨rfl, (hpipe _).mpr (Or.inr (Or.inl ⟨ch, q, rfl, rfl, h⟩))⟩
      · refine ⟨q, rfl, ?_⟩
        rcases h with ⟨c, rfl, h⟩ | ⟨rfl, h⟩
        · exact Or.inl ⟨c, rfl, (hfile _ _).mpr (Or.inr (Or.inr h))⟩
        · exact Or.inr ⟨rfl, (hpipe _).mpr (Or.inr (Or.inr h))⟩
    · rintro ⟨q, rfl, (⟨c, rfl, h⟩ | ⟨rfl, h⟩)⟩
      · rcases (hfile _ _).mp h with ⟨rfl, rfl⟩ | ⟨ch, q', rfl, rfl, h2⟩ | h
        · exact Or.inl (Or.inl ⟨c, rfl, rfl, rfl⟩)
        · exact Or.inl (Or.inr (Or.inr ⟨ch, q', rfl, by simp, Or.inl ⟨c, rfl, h2⟩⟩))
        · exact Or.inr ⟨q, rfl, Or.inl ⟨c, rfl, h⟩⟩
      · rcases (hpipe _).mp h with ⟨rfl, rfl⟩ | ⟨ch, q', rfl, rfl, h2⟩ | h
        · exact Or.inl (Or.inr (Or.inl ⟨rfl, rfl, rfl⟩))
        · exact Or.inl (Or.inr (Or.inr ⟨ch, q', rfl, by simp, Or.inr ⟨rfl, h2⟩⟩))
        · exact Or.inr ⟨q, rfl, Or.inr ⟨rfl, h⟩⟩
end

theorem walk_file {t : List (Text × Node)} {p : RelPath} {c : Bytes} :
    (p, Entry.file c) ∈ walkAll [] t ↔ HasFile t p c := by
  rw [mem_walkAll]
  constructor
  · rintro ⟨q, rfl, (⟨c', h, hf⟩ | ⟨h, -⟩)⟩
    · cases h; simpa using hf
    · cases h
  · intro h; exact ⟨p, by simp, Or.inl ⟨c, rfl, h⟩⟩

theorem walk_pipe {t : List (Text × Node)} {p : RelPath} : (p, Entry.pipe) ∈ walkAll [] t ↔ HasPipe t p := by
  rw [mem_walkAll]
  constructor
  · rintro ⟨q, rfl, (⟨c', h, hf⟩ | ⟨-, h⟩)⟩
    · cases h
    · simpa using h
  · intro h; exact ⟨p, by simp, Or.inr ⟨rfl, h⟩⟩

theorem Proper.unique {t : List (Text × Node)} (ht : Proper t) {p : RelPath} {c c' : Bytes} (h : HasFile t p c)
    (h' : HasFile t p c') : c = c' := by
  have huniq : ∀ {l : List (Text × Node)} {n x y}, (l.map Prod.fst).Nodup → (n, x) ∈ l → (n, y) ∈ l → x = y := by
    intro l n x y hn hx hy
    exact (Prod.mk.inj (List.inj_on_of_nodup_map hn hx hy rfl)).2
  induction h with
  | here hm =>
    cases ht with
    | intro hn _ =>
      cases h' with
      | here hm' => have := huniq hn hm hm'; injection this
      | inside _ h2 => cases h2
  | inside hm hf ih =>
    cases ht with
    | intro hn hsub =>
      cases h' with
      | here hm' => cases hf
      | inside hm' h2 =>
        have := huniq hn hm hm'
        injection this with this
        subst this
        exact ih (hsub _ _ hm) h2

/-- The copies that are made, with no assumption. -/
theorem copyAll_spec (copy : RelPath → Copy) : ∀ (l : List (RelPath × Entry)) (d : Dest),
    (∀ p, (copyAll copy d l).1 p = d p ∨
      ∃ c k, (p, Entry.file c) ∈ l ∧ (copyAll copy d l).1 p = some (c.take k)) ∧
    ((copyAll copy d l).2 = .hangs → ∃ p, (p, Entry.pipe) ∈ l)
  | [], d => by simp [copyAll]
  | (p, .pipe) :: l, d => by
    refine ⟨fun q => Or.inl rfl, fun _ => ⟨p, by simp⟩⟩
  | (p, .file c) :: l, d => by
    simp only [copyAll]
    cases copy p with
    | ok =>
      obtain ⟨h1, h2⟩ := copyAll_spec copy l (d.put p c)
      refine ⟨fun q => ?_, fun h => ?_⟩
      · rcases h1 q with h | ⟨c', k, hm, h⟩
        · by_cases hq : q = p
          · subst hq
            exact Or.inr ⟨c, c.length, by simp, by simpa [Dest.put] using h⟩
          · exact Or.inl (by simpa [Dest.put, hq] using h)
        · exact Or.inr ⟨c', k, by simp [hm], h⟩
      · obtain ⟨q, hq⟩ := h2 h; exact ⟨q, by simp [hq]⟩
    | refused => exact ⟨fun q => Or.inl rfl, fun h => by cases h⟩
    | partly n =>
      refine ⟨fun q => ?_, fun h => by cases h⟩
      by_cases hq : q = p
      · subst hq; exact Or.inr ⟨c, n, by simp, by simp [Dest.put]⟩
      · exact Or.inl (by simp [Dest.put, hq])

/-- A copy that ends well copied everything. -/
theorem copyAll_done (copy : RelPath → Copy) : ∀ (l : List (RelPath × Entry)) (d : Dest),
    (∀ p c c', (p, Entry.file c) ∈ l → (p, Entry.file c') ∈ l → c = c') →
    (copyAll copy d l).2 = .done →
    ∀ p c, (d p = some c ∨ (p, Entry.file c) ∈ l) → (∀ c', (p, Entry.file c') ∈ l → c' = c) →
      (copyAll copy d l).1 p = some c
  | [], d => by
    intro _ _ p c h _
    rcases h with h | h
    · exact h
    · simp at h
  | (p, .pipe) :: l, d => by intro _ h; cases h
  | (p, .file c) :: l, d => by
    intro hu hd q x hx hq
    simp only [copyAll] at hd ⊢
    cases hc : copy p with
    | ok =>
      rw [hc] at hd
      simp only at hd ⊢
      refine copyAll_done copy l (d.put p c) (fun p c c' h h' => hu p c c' (by simp [h]) (by simp [h'])) hd q x ?_
        (fun c' h => hq c' (by simp [h]))
      by_cases hqp : q = p
      · subst hqp
        have := hq c (by simp)
        exact Or.inl (by simp [Dest.put, this])
      · rcases hx with hx | hx
        · exact Or.inl (by simp [Dest.put, hqp, hx])
        · rcases List.mem_cons.mp hx with hx | hx
          · cases hx; exact absurd rfl hqp
          · exact Or.inr hx
    | refused => rw [hc] at hd; cases hd
    | partly n => rw [hc] at hd; cases hd

theorem copyAll_ok (copy : RelPath → Copy) : ∀ (l : List (RelPath × Entry)) (d : Dest),
    (∀ p c, (p, Entry.file c) ∈ l → copy p = .ok) →
    ((copyAll copy d l).2 = .done ∧ ∀ p, (p, Entry.pipe) ∉ l) ∨
    ((copyAll copy d l).2 = .hangs ∧ ∃ p, (p, Entry.pipe) ∈ l)
  | [], d => by simp [copyAll]
  | (p, .pipe) :: l, d => by intro _; exact Or.inr ⟨rfl, p, by simp⟩
  | (p, .file c) :: l, d => by
    intro hc
    simp only [copyAll]
    rw [hc p c (by simp)]
    simp only
    rcases copyAll_ok copy l (d.put p c) (fun p c h => hc p c (by simp [h])) with ⟨h1, h2⟩ | ⟨h1, q, h2⟩
    · exact Or.inl ⟨h1, fun q hq => by simp at hq; exact h2 q hq⟩
    · exact Or.inr ⟨h1, q, by simp [h2]⟩

section
variable {σ ρ : Type} (w : World σ ρ) (ofF : ℚ → ℚ) (f : Flags) (preserve : Bool) (dest : Dest)

/-- The runs that are graded, and what is done after. -/
theorem runOneshot_cases (hempty : w.readSource [] = none) :
    ((∃ run settings, f.input ≠ [] ∧ Asked w ofF f run ∧ w.readSettings f.input = some settings ∧
        runOneshot w ofF f preserve dest =
          match (w.grade run f.input settings).1 with
          | none => { dest := dest, left := if preserve then (w.grade run f.input settings).2 else [] }
          | some result =>
            if f.results = [] then
              { printed := some result, dest := dest,
                left := if preserve then (w.grade run f.input settings).2 else [] }
            else
              let c := copyAll w.copy dest (walkAll [] (w.grade run f.input settings).2)
              { printed := some result, dest := c.1, ends := c.2 ≠ .hangs,
                left := if preserve || c.2 = .hangs then (w.grade run f.input settings).2 else [] }) ∨
     ((f.input = [] ∨ (¬ ∃ run, Asked w ofF f run) ∨ w.readSettings f.input = none) ∧
        runOneshot w ofF f preserve dest = { dest := dest })) := by
  by_cases hin : f.input = []
  · right
    refine ⟨Or.inl hin, ?_⟩
    simp [runOneshot, theRun, hin]
  · cases hr : theRun w ofF f with
    | none =>
      right
      refine ⟨Or.inr (Or.inl ?_), by simp [runOneshot, hr]⟩
      rintro ⟨run, h⟩
      rw [(theRun_iff w ofF f run hin hempty).mpr h] at hr
      cases hr
    | some run =>
      cases hs : w.readSettings f.input with
      | none => right; exact ⟨Or.inr (Or.inr rfl), by simp [runOneshot, hr, hs]⟩
      | some settings =>
        left
        refine ⟨run, settings, hin, (theRun_iff w ofF f run hin hempty).mp hr, rfl, ?_⟩
        simp only [runOneshot, hr, hs]
        cases (w.grade run f.input settings).1 <;> rfl

theorem Asked.unique {run run' : Run} (h : Asked w ofF f run) (h' : Asked w ofF f run') : run = run' := by
  cases h with
  | byRequest r hr h1 =>
    cases h' with
    | byRequest r' _ h1' => rw [h1] at h1'; cases h1'; rfl
    | bySource _ _ _ hr' => exact absurd hr' hr
  | bySource b pre lang hr h1 hp hd hs =>
    cases h' with
    | byRequest r' hr' => exact absurd hr hr'
    | bySource b' pre' lang' _ h1' hp' hd' hs' =>
      rw [h1] at h1'
      cases h1'
      have e1 := (ext_spec f.source lang).mpr ⟨pre, hp, hd, hs⟩
      have e2 := (ext_spec f.source lang').mpr ⟨pre', hp', hd', hs'⟩
      rw [e1] at e2
      cases e2
      rfl

/-- **C152, the result.** A result is printed exactly if an input directory was named, the command line asks for a run,
the settings of the problem can be read and the run can be graded; it is then the result of grading that run. -/
theorem C152_printed (hempty : w.readSource [] = none) (r : ρ) :
    (runOneshot w ofF f preserve dest).printed = some r ↔
      f.input ≠ [] ∧ ∃ run settings, Asked w ofF f run ∧ w.readSettings f.input = some settings ∧
        (w.grade run f.input settings).1 = some r := by
  rcases runOneshot_cases w ofF f preserve dest hempty with ⟨run, settings, hin, ha, hs, he⟩ | ⟨h, he⟩
  · rw [he]
    constructor
    · intro h
      refine ⟨hin, run, settings, ha, hs, ?_⟩
      cases hg : (w.grade run f.input settings).1 with
      | none => rw [hg] at h; cases h
      | some r' =>
        rw [hg] at h
        simp only at h
        split at h <;> exact h
    · rintro ⟨-, run', settings', ha', hs', hg⟩
      obtain rfl := Asked.unique w ofF f ha ha'
      rw [hs] at hs'
      cases hs'
      rw [hg]
      simp only
      split <;> rfl
  · rw [he]
    constructor
    · intro h; cases h
    · rintro ⟨hin, run, settings, ha, hs, -⟩
      rcases h with h | h | h
      · exact absurd h hin
      · exact absurd ⟨run, ha⟩ h
      · rw [h] at hs; cases hs

/-- **C152, the results directory.** If files of the run directory can be copied and it has no named pipe, then the
program ends, and all the files of the run are in the results directory, with their contents; nothing else changes. -/
theorem C152_results_partial (hempty : w.readSource [] = none) {r : ρ} {run : Run} {settings : σ} (hin : f.input ≠ [])
    (ha : Asked w ofF f run) (hs : w.readSettings f.input = some settings)
    (hg : (w.grade run f.input settings).1 = some r) (hres : f.results ≠ [])
    (hproper : Proper (w.grade run f.input settings).2)
    (hcopy : ∀ p c, HasFile (w.grade run f.input settings).2 p c → w.copy p = .ok)
    (hpipe : ∀ p, ¬ HasPipe (w.grade run f.input settings).2 p) :
    (runOneshot w ofF f preserve dest).ends = true ∧
    (∀ p c, HasFile (w.grade run f.input settings).2 p c → (runOneshot w ofF f preserve dest).dest p = some c) ∧
    (∀ p, (∀ c, ¬ HasFile (w.grade run f.input settings).2 p c) →
      (runOneshot w ofF f preserve dest).dest p = dest p) := by
  rcases runOneshot_cases w ofF f preserve dest hempty with ⟨run', settings', -, ha', hs', he⟩ | ⟨h, -⟩
  · obtain rfl := Asked.unique w ofF f ha ha'
    rw [hs] at hs'
    cases hs'
    rw [hg] at he
    simp only [if_neg hres] at he
    rw [he]
    rcases copyAll_ok w.copy (walkAll [] (w.grade run f.input settings).2) dest
      (fun p c h => hcopy p c (walk_file.mp h)) with ⟨h1, h2⟩ | ⟨h1, q, h2⟩
    · refine ⟨by simp [h1], ?_, ?_⟩
      · intro p c h
        exact copyAll_done w.copy _ dest
          (fun p c c' h h' => hproper.unique (walk_file.mp h) (walk_file.mp h')) h1 p c (Or.inr (walk_file.mpr h))
          (fun c' h' => hproper.unique (walk_file.mp h') h)
      · intro p hp
        rcases (copyAll_spec w.copy (walkAll [] (w.grade run f.input settings).2) dest).1 p with h | ⟨c, k, h, -⟩
        · exact h
        · exact absurd (walk_file.mp h) (hp c)
    · exact absurd (walk_pipe.mp h2) (hpipe q)
  · rcases h with h | h | h
    · exact absurd h hin
    · exact absurd ⟨run, ha⟩ h
    · rw [h] at hs; cases hs

/-- **C152, when it does not end.** When files can be copied, the program ends exactly if no results directory was
named or the run directory has no named pipe. -/
theorem C152_hangs (hempty : w.readSource [] = none) {r : ρ} {run : Run} {settings : σ} (hin : f.input ≠ [])
    (ha : Asked w ofF f run) (hs : w.readSettings f.input = some settings)
    (hg : (w.grade run f.input settings).1 = some r)
    (hcopy : ∀ p c, HasFile (w.grade run f.input settings).2 p c → w.copy p = .ok) :
    (runOneshot w ofF f preserve dest).ends = true ↔
      (f.results = [] ∨ ∀ p, ¬ HasPipe (w.grade run f.input settings).2 p) := by
  rcases runOneshot_cases w ofF f preserve dest hempty with ⟨run', settings', -, ha', hs', he⟩ | ⟨h, -⟩
  · obtain rfl := Asked.unique w ofF f ha ha'
    rw [hs] at hs'
    cases hs'
    rw [hg] at he
    by_cases hres : f.results = []
    · simp only [if_pos hres] at he
      rw [he]
      simp [hres]
    · simp only [if_neg hres] at he
      rw [he]
      rcases copyAll_ok w.copy (walkAll [] (w.grade run f.input settings).2) dest
        (fun p c h => hcopy p c (walk_file.mp h)) with ⟨h1, h2⟩ | ⟨h1, q, h2⟩
      · simp only [h1, hres, false_or]
        exact ⟨fun _ p hp => h2 p (walk_pipe.mpr hp), fun _ => by simp⟩
      · simp only [h1, hres, false_or]
        exact ⟨fun h => by simp at h, fun h => absurd (walk_pipe.mp h2) (h q)⟩
  · rcases h with h | h | h
    · exact absurd h hin
    · exact absurd ⟨run, ha⟩ h
    · rw [h] at hs; cases hs

/-- **C152, only copies.** Whatever fails, a file of the results directory that is not as before is a file of the run
directory, with the beginning of its content; and nothing is written if no result was printed or no results directory
was named. -/
theorem C152_only_copies (hempty : w.readSource [] = none) (p : RelPath)
    (h : (runOneshot w ofF f preserve dest).dest p ≠ dest p) :
    f.results ≠ [] ∧ (∃ r, (runOneshot w ofF f preserve dest).printed = some r) ∧
    ∃ run settings c k, Asked w ofF f run ∧ w.readSettings f.input = some settings ∧
      HasFile (w.grade run f.input settings).2 p c ∧
      (runOneshot w ofF f preserve dest).dest p = some (c.take k) := by
  rcases runOneshot_cases w ofF f preserve dest hempty with ⟨run, settings, -, ha, hs, he⟩ | ⟨-, he⟩
  · rw [he] at h ⊢
    cases hg : (w.grade run f.input settings).1 with
    | none => rw [hg] at h; exact absurd rfl h
    | some r =>
      rw [hg] at h
      simp only at h ⊢
      by_cases hres : f.results = []
      · rw [if_pos hres] at h; exact absurd rfl h
      · rw [if_neg hres] at h ⊢
        refine ⟨hres, ⟨r, rfl⟩, run, settings, ?_⟩
        rcases (copyAll_spec w.copy (walkAll [] (w.grade run f.input settings).2) dest).1 p with h' | ⟨c, k, hm, h'⟩
        · exact absurd h' h
        · exact ⟨c, k, ha, hs, walk_file.mp hm, h'⟩
  · rw [he] at h; exact absurd rfl h

/-- **C152, cleaning up.** When the program ends and was not asked to preserve files, nothing of the run remains
(outside of the results directory); it always ends if no results directory was named. -/
theorem C152_clean (hempty : w.readSource [] = none) :
    ((runOneshot w ofF f false dest).ends = true → (runOneshot w ofF f false dest).left = []) ∧
    (f.results = [] → (runOneshot w ofF f preserve dest).ends = true) := by
  constructor
  · rcases runOneshot_cases w ofF f false dest hempty with ⟨run, settings, -, -, -, he⟩ | ⟨-, he⟩
    · rw [he]
      cases (w.grade run f.input settings).1 with
      | none => simp
      | some r =>
        simp only
        by_cases hres : f.results = []
        · simp [hres]
        · rw [if_neg hres]
          simp
          intro h1 h2
          exact absurd h2 h1
    · rw [he]; simp
  · intro hres
    rcases runOneshot_cases w ofF f preserve dest hempty with ⟨run, settings, -, -, -, he⟩ | ⟨-, he⟩
    · rw [he]
      cases (w.grade run f.input settings).1 with
      | none => rfl
      | some r => simp [hres]
    · rw [he]
end

/-! ### Concrete cases -/

/-- A problem at `p`, a program `d/sol.cpp`, and a grading that leaves a log and, for `interactive`, a named pipe. -/
def sample (interactive : Bool) : World Unit Nat where
  readRequest p := if p = "r.json".toList then
    some { attemptId := 7, source := [1], language := "py".toList } else none
  readSource p := if p = "d/sol.cpp".toList ∨ p = "d.x/sol".toList then some [65] else none
  readSettings p := if p = "p".toList then some () else none
  grade run _ _ := (some (run.source.length + if run.debug then 100 else 0),
    [("Main".toList, .dir ([("compile.meta".toList, .file [3, 4])] ++
      if interactive then [("pipes".toList, .dir [("in".toList, .pipe), ("out".toList, .pipe)])] else [])),
     ("logs.txt".toList, .file [1, 2])])
  copy _ := .ok

/-- A command line with a program and a results directory. -/
def withResults : Flags where
  input := "p".toList
  source := "d/sol.cpp".toList
  results := "out".toList

/-- The language is the end of the name; a directory's dot does not count. -/
example : Asked (sample false) id { input := "p".toList, source := "d/sol.cpp".toList }
    ⟨0, [65], "cpp".toList, [], "0000000000000000000000000000000000000000".toList, some 100, false⟩ :=
  .bySource [65] "d/sol".toList "cpp".toList rfl (by decide +kernel) (by decide +kernel) (by decide +kernel)
    (by decide +kernel)

example : (runOneshot (sample false) id { input := "p".toList, source := "d.x/sol".toList } false
    (fun _ => none)).printed = none := by decide +kernel

/-- A request has priority over a source. -/
example : (runOneshot (sample false) id { withResults with request := "r.json".toList, debug := true } false (fun _ => none)).printed = some 101 := by decide +kernel

/-- The files of the run are copied. -/
example : ((runOneshot (sample false) id withResults false (fun _ => none)).dest ["Main".toList, "compile.meta".toList],
    (runOneshot (sample false) id withResults false (fun _ => none)).dest ["logs.txt".toList]) = (some [3, 4], some [1, 2]) := by
  decide +kernel

theorem tree_ok (a b c : Text) (h : a ≠ c) (x y : Bytes) :
    Proper [(a, .dir [(b, .file x)]), (c, .file y)] ∧
    (∀ p, ¬ HasPipe [(a, .dir [(b, .file x)]), (c, .file y)] p) ∧
    HasFile [(a, .dir [(b, .file x)]), (c, .file y)] [a, b] x := by
  refine ⟨.intro (by simp [h]) ?_, ?_, .inside (ch := [(b, .file x)]) (by simp) (.here (by simp))⟩
  · intro n ch h
    simp at h
    rw [h.2]
    exact .intro (by simp) (by simp)
  · intro p h
    cases h with
    | here h => simp at h
    | inside h h' =>
      simp at h
      rw [h.2] at h'
      cases h' with
      | here h => simp at h
      | inside h h' => simp at h

/-- The hypotheses of `C152_results_partial` are met. -/
example : Proper ((sample false).grade {} [] ()).2 ∧ (∀ p, ¬ HasPipe ((sample false).grade {} [] ()).2 p) ∧
    HasFile ((sample false).grade {} [] ()).2 ["Main".toList, "compile.meta".toList] [3, 4] :=
  tree_ok "Main".toList "compile.meta".toList "logs.txt".toList (by decide +kernel) [3, 4] [1, 2]

/-- **C152, the full claim is false.** For an interactive problem, whose run directory has named pipes, the program
that was asked for the files of the run prints its result but never ends, and the files after the pipe are missing. -/
theorem C152_interactive_never_ends :
    (runOneshot (sample true) id withResults false (fun _ => none)).printed = some 1 ∧
    (runOneshot (sample true) id withResults false (fun _ => none)).ends = false ∧
    (runOneshot (sample true) id withResults false (fun _ => none)).dest ["logs.txt".toList] = none := by
  decide +kernel

end Quark.Oneshot
