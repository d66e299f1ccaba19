import Verif.Sandbox.Model

/-! # Files, links and copies -/

namespace Quark.Sandbox

/-- How the names of files may share files: `T` are the names that copies are made to, `W` those that are written.
Only a name in `T` shares its file with others, and never with one in `W`. -/
structure Good (T W : Str → Prop) (fs : FS) : Prop where
  bound : ∀ p i, fs.ino p = some i → i < fs.next
  share : ∀ p q i, fs.ino p = some i → fs.ino q = some i → p ≠ q → (T p ∨ T q) ∧ ¬ W p ∧ ¬ W q

variable {T W : Str → Prop} {fs : FS}

theorem Good.weaken {W' : Str → Prop} (h : Good T W fs) (hw : ∀ p, W' p → W p) : Good T W' fs where
  bound := h.bound
  share p q i h1 h2 h3 :=
    ⟨(h.share p q i h1 h2 h3).1, fun hp => (h.share p q i h1 h2 h3).2.1 (hw p hp),
      fun hq => (h.share p q i h1 h2 h3).2.2 (hw q hq)⟩

theorem read_remove (fs : FS) (p q : Str) : (fs.remove p).read q = if q = p then none else fs.read q := by
  unfold FS.read FS.remove
  simp only
  split <;> simp

theorem ino_remove (fs : FS) (p q : Str) : (fs.remove p).ino q = if q = p then none else fs.ino q := rfl

theorem good_remove (h : Good T W fs) (p : Str) : Good T W (fs.remove p) where
  bound q i hq := by
    rw [ino_remove] at hq
    split at hq
    · cases hq
    · exact h.bound q i hq
  share a b i ha hb hab := by
    rw [ino_remove] at ha hb
    split at ha
    · cases ha
    · split at hb
      · cases hb
      · exact h.share a b i ha hb hab

theorem read_link (fs : FS) (i : Nat) (p q : Str) :
    (fs.link i p).read q = if q = p then some (fs.data i) else fs.read q := by
  unfold FS.read FS.link
  simp only
  split <;> simp

theorem good_link (h : Good T W fs) {i : Nat} {src dst : Str} (hs : fs.ino src = some i) (hsw : ¬ W src)
    (hdt : T dst) (hdw : ¬ W dst) : Good T W (fs.link i dst) where
  bound q k hq := by
    simp only [FS.link] at hq ⊢
    split at hq
    · cases hq; exact h.bound src _ hs
    · exact h.bound q k hq
  share a b k ha hb hab := by
    simp only [FS.link] at ha hb
    split at ha
    · rename_i hae
      subst hae
      cases ha
      rw [if_neg (Ne.symm hab)] at hb
      refine ⟨Or.inl hdt, hdw, ?_⟩
      by_cases hbs : b = src
      · rw [hbs]; exact hsw
      · exact (h.share b src _ hb hs hbs).2.1
    · split at hb
      · rename_i hbe
        subst hbe
        cases hb
        refine ⟨Or.inr hdt, ?_, hdw⟩
        by_cases has : a = src
        · rw [has]; exact hsw
        · exact (h.share a src _ ha hs has).2.1
      · exact h.share a b k ha hb hab

/-- A new file. -/
theorem create_new {p : Str} (hp : fs.ino p = none) (h : Good T W fs) :
    (fs.create p).2 = fs.next ∧ Good T W (fs.create p).1 ∧
      (∀ q, (fs.create p).1.read q = if q = p then some [] else fs.read q) ∧
      (fs.create p).1.ino p = some fs.next ∧
      (∀ q, q ≠ p → (fs.create p).1.ino q = fs.ino q) := by
  have e : fs.create p = ({ ino := fun q => if q = p then some fs.next else fs.ino q
                            data := fun j => if j = fs.next then [] else fs.data j
                            next := fs.next + 1 }, fs.next) := by
    unfold FS.create; rw [hp]
  rw [e]
  refine ⟨rfl, ⟨?_, ?_⟩, ?_, by simp, fun q hq => by simp [hq]⟩
  · intro q i hq
    simp only at hq ⊢
    split at hq
    · cases hq; omega
    · have := h.bound q i hq; omega
  · intro a b i ha hb hab
    simp only at ha hb
    split at ha
    · rename_i hae
      cases ha
      rw [if_neg (fun hb' => hab (hae.trans hb'.symm))] at hb
      have := h.bound b _ hb
      omega
    · split at hb
      · cases hb
        have := h.bound a _ ha
        omega
      · exact h.share a b i ha hb hab
  · intro q
    unfold FS.read
    simp only
    split
    · simp
    · cases hq : fs.ino q with
      | none => simp
      | some i =>
        have := h.bound q i hq
        simp only [Option.map_some]
        rw [if_neg (by omega)]

theorem good_set (h : Good T W fs) (i : Nat) (c : Str) : Good T W (fs.set i c) where
  bound := h.bound
  share := h.share

theorem read_set (fs : FS) (i : Nat) (c : Str) (q : Str) :
    (fs.set i c).read q = if fs.ino q = some i then some c else fs.read q := by
  unfold FS.read FS.set
  simp only
  cases hq : fs.ino q with
  | none => simp
  | some k =>
    simp only [Option.map_some, Option.some.injEq]
    split <;> simp

theorem ino_set (fs : FS) (i : Nat) (c : Str) (q : Str) : (fs.set i c).ino q = fs.ino q := rfl

/-- Writing a file in `W` changes that file and nothing else. -/
theorem write_spec (h : Good T W fs) {p : Str} (hw : W p) (c : Str) :
    Good T W (fs.write p c) ∧ ∀ q, (fs.write p c).read q = if q = p then some c else fs.read q := by
  unfold FS.write
  cases hp : fs.ino p with
  | none =>
    obtain ⟨h1, h2, h3, h4, h5⟩ := create_new hp h
    rw [show fs.create p = ((fs.create p).1, fs.next) from by rw [← h1]]
    simp only
    refine ⟨good_set h2 _ _, fun q => ?_⟩
    rw [read_set]
    by_cases hq : q = p
    · subst hq
      rw [if_pos h4, if_pos rfl]
    · rw [if_neg hq, h5 q hq, h3 q, if_neg hq, if_neg]
      intro hc
      exact absurd (h.bound q _ hc) (by omega)
  | some i =>
    have e : fs.create p = (fs.set i [], i) := by unfold FS.create; rw [hp]
    rw [e]
    simp only
    refine ⟨good_set (good_set h _ _) _ _, fun q => ?_⟩
    rw [read_set, ino_set, read_set]
    by_cases hq : q = p
    · subst hq; rw [if_pos hp, if_pos rfl]
    · rw [if_neg hq]
      have : fs.ino q ≠ some i := fun hc => (h.share q p i hc hp hq).2.2 hw
      rw [if_neg this, if_neg this]

/-- Whether a copy is made at all: a link, or the contents. -/
def CopyEnv.Works (env : CopyEnv) : Prop :=
  env.link = true ∨ (env.openSrc = true ∧ env.createDst = true ∧ env.failsAfter = none)

/-- Copying to a name that does not exist changes that name and nothing else; if it works, the copy has the contents
of the original, and there is none if the original does not exist. -/
theorem copy_spec (h : Good T W fs) (env : CopyEnv) {src dst : Str} (hd : fs.ino dst = none) (hdt : T dst)
    (hdw : ¬ W dst) (hsw : ¬ W src) :
    Good T W (copyFile env src dst fs).1 ∧
    (∀ q, q ≠ dst → (copyFile env src dst fs).1.read q = fs.read q) ∧
    ((copyFile env src dst fs).2 = false →
      (copyFile env src dst fs).1.read dst = fs.read src ∨ (copyFile env src dst fs).1.read dst = none) ∧
    (env.Works → (copyFile env src dst fs).2 = false ∧ (copyFile env src dst fs).1.read dst = fs.read src) := by
  have hrd : fs.read dst = none := by unfold FS.read; rw [hd]; rfl
  unfold copyFile
  cases hs : fs.ino src with
  | none =>
    simp only
    have hrs : fs.read src = none := by unfold FS.read; rw [hs]; rfl
    exact ⟨h, fun _ _ => trivial, fun _ => Or.inr hrd, fun _ => ⟨trivial, by rw [hrd, hrs]⟩⟩
  | some i =>
    have hrs : fs.read src = some (fs.data i) := by unfold FS.read; rw [hs]; rfl
    simp only
    by_cases hl : env.link = true ∧ fs.ino dst = none
    · rw [if_pos hl]
      refine ⟨good_link h hs hsw hdt hdw, fun q hq => ?_, fun _ => Or.inl ?_, fun _ => ⟨rfl, ?_⟩⟩
      · simp only; rw [read_link, if_neg hq]
      · simp only; rw [read_link, if_pos rfl, hrs]
      · simp only; rw [read_link, if_pos rfl, hrs]
    · have hl' : env.link ≠ true := fun hc => hl ⟨hc, hd⟩
      rw [if_neg hl]
      by_cases ho : env.openSrc = true
      · rw [if_neg (by simpa using ho)]
        by_cases hc : env.createDst = true
        · rw [if_neg (by simpa using hc)]
          obtain ⟨h1, h2, h3, h4, h5⟩ := create_new hd h
          have hsd : src ≠ dst := by rintro rfl; rw [hd] at hs; cases hs
          rw [show fs.create dst = ((fs.create dst).1, fs.next) from by rw [← h1]]
          simp only
          have hdata : (fs.create dst).1.data i = fs.data i := by
            have h6 := h3 src
            rw [if_neg hsd, hrs] at h6
            unfold FS.read at h6
            rw [h5 src hsd, hs] at h6
            simpa using h6
          have hset : ∀ (c : Str) (q : Str), q ≠ dst → ((fs.create dst).1.set fs.next c).read q = fs.read q := by
            intro c q hq
            rw [read_set, h5 q hq, h3 q, if_neg hq, if_neg]
            intro hx
            exact absurd (h.bound q _ hx) (by omega)
          cases hf : env.failsAfter with
          | none =>
            have : ((fs.create dst).1.set fs.next ((fs.create dst).1.data i)).read dst = fs.read src := by
              rw [read_set, if_pos h4, hdata, hrs]
            exact ⟨good_set h2 _ _, fun q hq => hset _ q hq, fun _ => Or.inl (by simpa using this),
              fun _ => ⟨rfl, by simpa using this⟩⟩
          | some n =>
            refine ⟨good_set h2 _ _, fun q hq => hset _ q hq, fun hc => (by cases hc), ?_⟩
            rintro (hw | hw)
            · exact absurd hw hl'
            · rw [hf] at hw; exact absurd hw.2.2 (by simp)
        · rw [if_pos (by simpa using hc)]
          refine ⟨h, fun _ _ => rfl, fun _ => Or.inr hrd, ?_⟩
          rintro (hw | hw)
          · exact absurd hw hl'
          · exact absurd hw.2.1 hc
      · rw [if_pos (by simpa using ho)]
        refine ⟨h, fun _ _ => rfl, fun _ => Or.inr hrd, ?_⟩
        rintro (hw | hw)
        · exact absurd hw hl'
        · exact absurd hw.1 ho

/-- Placing files: only the targets change; if there is no error, each target has the contents of its original or
does not exist; and if everything works, there is no error and each target is like its original. -/
theorem place_spec (env : PlaceEnv) (links : List (Str × Str)) (h : Good T W fs)
    (hr : ∀ l ∈ links, env.remove l.2 = true)
    (ht : ∀ l ∈ links, T l.2 ∧ ¬ W l.2 ∧ ¬ W l.1)
    (hne : ∀ l ∈ links, ∀ m ∈ links, l.1 ≠ m.2) (hnd : (links.map Prod.snd).Nodup) :
    Good T W (place env links fs).1 ∧
    (∀ q, (∀ l ∈ links, q ≠ l.2) → (place env links fs).1.read q = fs.read q) ∧
    ((place env links fs).2 = false → ∀ l ∈ links,
      (place env links fs).1.read l.2 = fs.read l.1 ∨ (place env links fs).1.read l.2 = none) ∧
    ((∀ l ∈ links, (env.copy l.2).Works) →
      (place env links fs).2 = false ∧ ∀ l ∈ links, (place env links fs).1.read l.2 = fs.read l.1) := by
  induction links generalizing fs with
  | nil => exact ⟨h, fun _ _ => rfl, fun _ => by simp, fun _ => ⟨rfl, by simp⟩⟩
  | cons l links ih =>
    obtain ⟨src, dst⟩ := l
    have hrm := hr (src, dst) (by simp)
    obtain ⟨hdt, hdw, hsw⟩ := ht (src, dst) (by simp)
    have hg := good_remove h dst
    have hino : (fs.remove dst).ino dst = none := by rw [ino_remove, if_pos rfl]
    obtain ⟨c1, c2, c3⟩ := copy_spec hg (env.copy dst) (src := src) hino hdt hdw hsw
    have hsd : src ≠ dst := hne (src, dst) (by simp) (src, dst) (by simp)
    rw [place]
    simp only at hrm
    rw [if_pos hrm]
    cases hcp : copyFile (env.copy dst) src dst (fs.remove dst) with
    | mk fs1 e =>
      rw [hcp] at c1 c2 c3
      simp only at c1 c2 c3
      rw [read_remove, if_neg hsd] at c3
      have hnd' : (links.map Prod.snd).Nodup ∧ dst ∉ links.map Prod.snd := by
        simp only [List.map_cons, List.nodup_cons] at hnd
        exact ⟨hnd.2, hnd.1⟩
      obtain ⟨i1, i2, i3, i4⟩ := ih c1 (fun l hl => hr l (by simp [hl])) (fun l hl => ht l (by simp [hl]))
        (fun l hl m hm => hne l (by simp [hl]) m (by simp [hm])) hnd'.1
      have hdst : ∀ l ∈ links, dst ≠ l.2 := fun l hl hc => hnd'.2 (List.mem_map.2 ⟨l, hl, hc.symm⟩)
      have hsrc : ∀ l ∈ links, l.1 ≠ dst := fun l hl => hne l (by simp [hl]) (src, dst) (by simp)
      have hkeep : ∀ q, q ≠ dst → fs1.read q = fs.read q := by
        intro q hq
        rw [c2 q hq, read_remove, if_neg hq]
      cases e with
      | true =>
        refine ⟨c1, fun q hq => hkeep q (hq (src, dst) (by simp)), fun hc => (by cases hc), fun hw => ?_⟩
        have := (c3.2 (hw (src, dst) (by simp))).1
        cases this
      | false =>
        simp only
        refine ⟨i1, fun q hq => ?_, fun hok l hl => ?_, fun hw => ?_⟩
        · rw [i2 q (fun l hl => hq l (by simp [hl])), hkeep q (hq (src, dst) (by simp))]
        · rcases List.mem_cons.1 hl with rfl | hl
          · simp only
            rw [i2 dst hdst]
            exact c3.1 rfl
          · rw [← hkeep l.1 (hsrc l hl)]
            exact i3 hok l hl
        · obtain ⟨j1, j2⟩ := i4 (fun l hl => hw l (by simp [hl]))
          refine ⟨j1, fun l hl => ?_⟩
          rcases List.mem_cons.1 hl with rfl | hl
          · simp only
            rw [i2 dst hdst, (c3.2 (hw (src, dst) (by simp))).2]
          · rw [j2 l hl, hkeep _ (hsrc l hl)]

end Quark.Sandbox
