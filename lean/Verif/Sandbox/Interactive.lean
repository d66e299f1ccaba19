import Verif.Sandbox.Grading
import Verif.Sandbox.Outputs

/-! # The set-up of interactive problems (C90) -/

namespace Quark.Sandbox

open Path Spec

theorem execOps_append (a b : List (Op × Bool × CopyEnv)) (fs : FS) :
    execOps (a ++ b) fs =
      match execOps a fs with
      | (fs, true) => (fs, true)
      | (fs, false) => execOps b fs := by
  induction a generalizing fs with
  | nil => rfl
  | cons s a ih =>
    obtain ⟨op, works, env⟩ := s
    rw [List.cons_append, execOps, execOps]
    cases op.exec works env fs with
    | mk fs' e =>
      cases e with
      | true => rfl
      | false => exact ih fs'

theorem copied_append (a b : List (Op × Bool × CopyEnv)) : copied (a ++ b) = copied a ++ copied b :=
  List.filterMap_append ..

/-- A file that is written and not touched again has what was written. -/
theorem exec_last {T W : Str → Prop} (a b : List (Op × Bool × CopyEnv)) (q c : Str) (works : Bool) (env : CopyEnv)
    {fs : FS} (hg : Good T W fs)
    (hw : ∀ s ∈ a ++ (Op.write q c, works, env) :: b, ∀ p c, s.1 = .write p c → W p)
    (hc : ∀ s ∈ a ++ (Op.write q c, works, env) :: b, ∀ x y, s.1 = .copy x y → T y ∧ ¬ W y ∧ ¬ W x)
    (hnd : (copied (a ++ (Op.write q c, works, env) :: b)).Nodup)
    (hn : ∀ d ∈ copied (a ++ (Op.write q c, works, env) :: b), fs.read d = none)
    (hlast : ∀ s ∈ b, ∀ c, s.1 ≠ .write q c)
    (hok : (execOps (a ++ (Op.write q c, works, env) :: b) fs).2 = false) :
    (execOps (a ++ (Op.write q c, works, env) :: b) fs).1.read q = some c := by
  have hcp : copied (a ++ (Op.write q c, works, env) :: b) = copied a ++ copied b := by
    rw [copied_append]; rfl
  rw [hcp] at hnd hn
  have hnd' := List.nodup_append.1 hnd
  obtain ⟨a1, a2⟩ := exec_spec a hg (fun s hs => hw s (by simp [hs])) (fun s hs => hc s (by simp [hs])) hnd'.1
    (fun d hd => hn d (by simp [hd]))
  have hqW : W q := hw (.write q c, works, env) (by simp) q c rfl
  rw [execOps_append] at hok ⊢
  cases ha : execOps a fs with
  | mk fs1 e =>
    rw [ha] at hok a1 a2
    simp only at hok a1 a2
    cases e with
    | true => cases hok
    | false =>
      simp only [execOps, Op.exec] at hok ⊢
      cases works with
      | false => simp at hok
      | true =>
        simp only [if_true] at hok ⊢
        obtain ⟨g, r⟩ := write_spec a1 hqW c
        have hbn : ∀ d ∈ copied b, ¬ W d := by
          intro d hd
          unfold copied at hd
          obtain ⟨s, hs, hsd⟩ := List.mem_filterMap.1 hd
          cases h1 : s.1 with
          | copy x y =>
            rw [h1] at hsd
            simp only [copyDst, Option.some.injEq] at hsd
            subst hsd
            exact (hc s (by simp [hs]) x y h1).2.1
          | _ => rw [h1] at hsd; simp [copyDst] at hsd
        obtain ⟨b1, b2⟩ := exec_spec b g (fun s hs => hw s (by simp [hs])) (fun s hs => hc s (by simp [hs])) hnd'.2.1
          (by
            intro d hd
            rw [r, if_neg (by rintro rfl; exact hbn _ hd hqW), a2 d ?_ ?_]
            · exact hn d (by simp [hd])
            · intro s hs c' he
              exact hbn d hd (hw s (by simp [hs]) d c' he)
            · intro h
              exact (hnd'.2.2 d h d hd) rfl)
        rw [b2 q hlast (fun h => hbn q h hqW), r, if_pos rfl]

/-- A copy that is not touched again has the contents of the original. -/
theorem exec_copied {T W : Str → Prop} (a b : List (Op × Bool × CopyEnv)) (x y : Str) (works : Bool) (env : CopyEnv)
    {fs : FS} (hg : Good T W fs)
    (hw : ∀ s ∈ a ++ (Op.copy x y, works, env) :: b, ∀ p c, s.1 = .write p c → W p)
    (hc : ∀ s ∈ a ++ (Op.copy x y, works, env) :: b, ∀ x y, s.1 = .copy x y → T y ∧ ¬ W y ∧ ¬ W x)
    (hnd : (copied (a ++ (Op.copy x y, works, env) :: b)).Nodup)
    (hn : ∀ d ∈ copied (a ++ (Op.copy x y, works, env) :: b), fs.read d = none)
    (hx : x ∉ copied (a ++ (Op.copy x y, works, env) :: b)) (hworks : env.Works)
    (hok : (execOps (a ++ (Op.copy x y, works, env) :: b) fs).2 = false) :
    (execOps (a ++ (Op.copy x y, works, env) :: b) fs).1.read y = fs.read x := by
  have hcp : copied (a ++ (Op.copy x y, works, env) :: b) = copied a ++ y :: copied b := by
    rw [copied_append]; rfl
  rw [hcp] at hnd hn hx
  have hnd' := List.nodup_append.1 hnd
  obtain ⟨hnd1, hnd2⟩ := List.nodup_cons.1 hnd'.2.1
  obtain ⟨a1, a2⟩ := exec_spec a hg (fun s hs => hw s (by simp [hs])) (fun s hs => hc s (by simp [hs])) hnd'.1
    (fun d hd => hn d (by simp [hd]))
  obtain ⟨hyT, hyW, hxW⟩ := hc (.copy x y, works, env) (by simp) x y rfl
  have hbn : ∀ d ∈ y :: copied b, ¬ W d := by
    intro d hd
    rcases List.mem_cons.1 hd with rfl | hd
    · exact hyW
    · unfold copied at hd
      obtain ⟨s, hs, hsd⟩ := List.mem_filterMap.1 hd
      cases h1 : s.1 with
      | copy x y =>
        rw [h1] at hsd
        simp only [copyDst, Option.some.injEq] at hsd
        subst hsd
        exact (hc s (by simp [hs]) x y h1).2.1
      | _ => rw [h1] at hsd; simp [copyDst] at hsd
  have hkeep : ∀ d ∈ y :: copied b, (execOps a fs).1.read d = none := by
    intro d hd
    rw [a2 d]
    · exact hn d (List.mem_append_right _ hd)
    · intro s hs c' he
      exact hbn d hd (hw s (by simp [hs]) d c' he)
    · intro h
      exact (hnd'.2.2 d h d hd) rfl
  have hxr : (execOps a fs).1.read x = fs.read x := by
    apply a2
    · intro s hs c' he
      exact hxW (hw s (by simp [hs]) x c' he)
    · intro h; exact hx (List.mem_append_left _ h)
  rw [execOps_append] at hok ⊢
  cases ha : execOps a fs with
  | mk fs1 e =>
    rw [ha] at hok a1 hkeep hxr
    simp only at hok a1 hkeep hxr
    cases e with
    | true => cases hok
    | false =>
      simp only [execOps, Op.exec] at hok ⊢
      have hy : fs1.ino y = none := (ino_none_iff fs1 y).2 (hkeep y (by simp))
      obtain ⟨c1, c2, -, c4⟩ := copy_spec a1 env (src := x) hy hyT hyW hxW
      cases hcf : copyFile env x y fs1 with
      | mk fs2 e2 =>
        rw [hcf] at c1 c2 c4 hok
        simp only at c1 c2 c4 hok
        cases e2 with
        | true => cases hok
        | false =>
          simp only at hok ⊢
          have hyb : ∀ d ∈ copied b, d ≠ y := fun d hd h => hnd1 (h ▸ hd)
          obtain ⟨b1, b2⟩ := exec_spec b c1 (fun s hs => hw s (by simp [hs])) (fun s hs => hc s (by simp [hs])) hnd2
            (fun d hd => by rw [c2 d (hyb d hd)]; exact hkeep d (by simp [hd]))
          rw [b2 y (fun s hs c' he => hyW (hw s (by simp [hs]) y c' he)) hnd1, (c4 hworks).2, hxr]

/-! ## The steps for the interfaces -/

theorem ifacesOps_split {j : Job} {ia : Interactive} {ifaces : List Str} {l1 l2 : List (Str × List (Str × Iface))}
    {name : Str} {langs : List (Str × Iface)} {ops : List Op}
    (h : ifacesOps j ia ifaces (l1 ++ (name, langs) :: l2) = some ops) :
    ∃ o1 o o2, ops = o1 ++ o ++ o2 ∧ ifacesOps j ia ifaces l1 = some o1 ∧
      ifaceOps j ia ifaces name langs = some o ∧ ifacesOps j ia ifaces l2 = some o2 := by
  induction l1 generalizing ops with
  | nil =>
    rw [List.nil_append, ifacesOps] at h
    cases h1 : ifaceOps j ia ifaces name langs with
    | none => simp [h1] at h
    | some o =>
      cases h2 : ifacesOps j ia ifaces l2 with
      | none => simp [h1, h2] at h
      | some o2 =>
        simp only [h1, h2, Option.some.injEq] at h
        exact ⟨[], o, o2, by simp [h], rfl, rfl, rfl⟩
  | cons f l1 ih =>
    obtain ⟨n, ls⟩ := f
    rw [List.cons_append, ifacesOps] at h
    cases h1 : ifaceOps j ia ifaces n ls with
    | none => simp [h1] at h
    | some o0 =>
      cases h2 : ifacesOps j ia ifaces (l1 ++ (name, langs) :: l2) with
      | none => simp [h1, h2] at h
      | some r =>
        simp only [h1, h2, Option.some.injEq] at h
        obtain ⟨o1, o, o2, e, e1, e2, e3⟩ := ih h2
        refine ⟨o0 ++ o1, o, o2, by rw [← h, e]; simp, ?_, e2, e3⟩
        rw [ifacesOps, h1, e1]

/-- All files of an interface are written to its own directory. -/
theorem ifaceOps_dir {j : Job} (hr : j.root ≠ []) {ia : Interactive} (ht : Tidy j ia) {ifaces : List Str} {name : Str}
    {langs : List (Str × Iface)} (hm : (name, langs) ∈ ia.interfaces) {ops : List Op}
    (h : ifaceOps j ia ifaces name langs = some ops) {p c : Str} (hp : Op.write p c ∈ ops) :
    ∃ f, names p = names j.root ++ [name, c!"bin", f] := by
  have hn := (ht.names _ hm).1
  unfold ifaceOps at h
  simp only at h
  cases hg : get (if name = c!"Main" then extension ia.parentLang else extension j.language) langs with
  | none => rw [hg] at h; simp at h
  | some iface =>
    rw [hg] at h
    simp only [Option.some.injEq] at h
    subst h
    rcases List.mem_append.1 hp with hp | hp
    · obtain ⟨g, hg', he⟩ := List.mem_map.1 hp
      have := ht.files _ hm _ (get_mem hg) g hg'
      rw [← (Op.write.inj he).1]
      exact ⟨_, names_bin_file hr hn this.1⟩
    · by_cases hM : name = c!"Main"
      · rw [if_pos hM] at hp
        simp at hp
      · rw [if_neg hM] at hp
        simp only [List.mem_cons, Op.write.injEq, List.not_mem_nil, reduceCtorEq, or_false] at hp
        rw [hp.1]
        have := names_bin_file hr hn ht.moduleName
        exact ⟨_, by simpa using this⟩

theorem ifacesOps_dir {j : Job} (hr : j.root ≠ []) {ia : Interactive} (ht : Tidy j ia) {ifaces : List Str}
    {fs : List (Str × List (Str × Iface))} (hsub : ∀ f ∈ fs, f ∈ ia.interfaces) {ops : List Op}
    (h : ifacesOps j ia ifaces fs = some ops) {p c : Str} (hp : Op.write p c ∈ ops) :
    ∃ n ∈ fs.map Prod.fst, ∃ f, names p = names j.root ++ [n, c!"bin", f] := by
  induction fs generalizing ops with
  | nil => simp only [ifacesOps, Option.some.injEq] at h; subst h; simp at hp
  | cons f fs ih =>
    obtain ⟨name, langs⟩ := f
    rw [ifacesOps] at h
    cases h1 : ifaceOps j ia ifaces name langs with
    | none => simp [h1] at h
    | some o1 =>
      cases h2 : ifacesOps j ia ifaces fs with
      | none => simp [h1, h2] at h
      | some o2 =>
        simp only [h1, h2, Option.some.injEq] at h
        subst h
        rcases List.mem_append.1 hp with hp | hp
        · obtain ⟨f, hf⟩ := ifaceOps_dir hr ht (hsub _ (by simp)) h1 hp
          exact ⟨name, by simp, f, hf⟩
        · obtain ⟨n, hn, f, hf⟩ := ih (fun f hf => hsub f (by simp [hf])) h2 hp
          exact ⟨n, by simp [hn], f, hf⟩

theorem steps_split {steps : List (Op × Bool × CopyEnv)} {A B : List Op} {op : Op}
    (h : steps.map Prod.fst = A ++ op :: B) :
    ∃ a w e b, steps = a ++ (op, w, e) :: b ∧ a.map Prod.fst = A ∧ b.map Prod.fst = B := by
  obtain ⟨a, r, h1, h2, h3⟩ := List.map_eq_append_iff.1 h
  obtain ⟨⟨op', w, e⟩, b, h4, h5, h6⟩ := List.map_eq_cons_iff.1 h3
  simp only at h5
  subst h5
  exact ⟨a, w, e, b, by rw [h1, h4], h2, h6⟩

/-- What the steps of setting up do not do. -/
theorem setup_facts {j : Job} (ha : Apart j) (hs : NoSlashes j) {bs : List Binary} {ops : List Op}
    (ho : setupOps j bs = some ops) (hw : ∀ p c, Op.write p c ∈ ops → Free j p)
    {steps : List (Op × Bool × CopyEnv)} (hsteps : steps.map Prod.fst = ops) {fs : FS} (hf : Fresh j fs) :
    Good (· ∈ copyTargets j) (Free j) fs ∧
    (∀ s ∈ steps, ∀ p c, s.1 = .write p c → Free j p) ∧
    (∀ s ∈ steps, ∀ x y, s.1 = .copy x y → y ∈ copyTargets j ∧ ¬ Free j y ∧ ¬ Free j x) ∧
    (copied steps).Nodup ∧ (∀ d ∈ copied steps, fs.read d = none) ∧
    (∀ d ∈ copied steps, Within j.root d) := by
  have hmem : ∀ s ∈ steps, s.1 ∈ ops := fun s hs' => by
    rw [← hsteps]; exact List.mem_map.2 ⟨s, hs', rfl⟩
  have hcop : copied steps = setupTargets j := (copied_eq steps).trans (by rw [hsteps]; exact setup_copied ho)
  obtain ⟨hnd, hct⟩ := setup_copied_nodup ha.root hs
  rw [← hcop] at hnd hct
  have hsrc := src_not_within ha hs
  have hin : ∀ d ∈ copied steps, Within j.root d := fun d hd => copyTargets_within ha.root hs (hct d hd).1
  refine ⟨⟨hf.bound, fun p q i h1 h2 h3 => absurd (hf.own p q i h1 h2) h3⟩,
    fun s hs' p c he => hw p c (he ▸ hmem s hs'), ?_, hnd,
    fun d hd => (ino_none_iff fs d).1 (hf.empty d (hin d hd)), hin⟩
  intro s hs' a b he
  have hm := hmem s hs'
  rw [he] at hm
  have hb : b ∈ copied steps := by
    unfold copied
    exact List.mem_filterMap.2 ⟨s, hs', by rw [he]; rfl⟩
  refine ⟨(hct b hb).1, fun hfr => hfr.2 (hct b hb).1, ?_⟩
  rcases setup_copies ho hm with ⟨ia, hi, rfl, _⟩ | ⟨lang, hl, rfl, _⟩
  · exact fun hfr => hsrc.1 ia hi hfr.1
  · exact fun hfr => hsrc.2 lang hl hfr.1

/-- The steps of setting up an interactive problem. -/
theorem setup_interactive {j : Job} {ia : Interactive} (hi : j.interactive = some ia) {bs : List Binary}
    {ops : List Op} (ho : setupOps j bs = some ops) :
    ∃ o val, ifacesOps j ia (ia.interfaces.map Prod.fst) ia.interfaces = some o ∧
      ops = (binDirs j bs ++
        Op.copy (join [j.inputPath, c!"interactive/Main." ++ extension ia.parentLang])
          (join [j.root, c!"Main/bin/Main." ++ extension ia.parentLang]) :: o) ++ val ∧
      ∀ p c, Op.write p c ∉ val := by
  unfold setupOps at ho
  simp only [hi] at ho
  cases hio : ifacesOps j ia (ia.interfaces.map Prod.fst) ia.interfaces with
  | none => simp [hio] at ho
  | some o =>
    simp only [hio, Option.map_some, Option.some.injEq] at ho
    refine ⟨o, _, rfl, ho.symm, ?_⟩
    intro p c
    cases j.validator <;> simp

/-- **C90**, the programs of the contestant: once everything is set up, the directory of every interface but `Main`
has the contestant's source as the module's source file, and the directory of every interface has the files of
that interface (except one with the name of the module's source file), for distinct interfaces whose files have
distinct names. -/
theorem C90_children (j : Job) (ha : Apart j) (hs : NoSlashes j) (hl : '/' ∉ j.language) (ia : Interactive)
    (hi : j.interactive = some ia) (ht : Tidy j ia) (hkeys : (ia.interfaces.map Prod.fst).Nodup)
    (bs : List Binary) (ops : List Op) (ho : setupOps j bs = some ops)
    (steps : List (Op × Bool × CopyEnv)) (hsteps : steps.map Prod.fst = ops) (fs : FS) (hf : Fresh j fs)
    (hok : (execOps steps fs).2 = false) (name : Str) (langs : List (Str × Iface))
    (hm : (name, langs) ∈ ia.interfaces) :
    (name ≠ c!"Main" →
      (execOps steps fs).1.read (join [j.root, name, c!"bin", ia.moduleName ++ '.' :: extension j.language]) =
        some j.source) ∧
    (∀ iface, get (if name = c!"Main" then extension ia.parentLang else extension j.language) langs = some iface →
      (iface.files.map fun g => base g.1).Nodup → ∀ g ∈ iface.files,
      (name ≠ c!"Main" → base g.1 ≠ ia.moduleName ++ '.' :: extension j.language) →
      (execOps steps fs).1.read (join [j.root, name, c!"bin", base g.1]) = some g.2) := by
  have hr := ha.root
  have hw : ∀ p c, Op.write p c ∈ ops → Free j p :=
    C92_setup_free hr hs hl (fun ia' hi' => by rw [hi] at hi'; cases hi'; exact ht) ho
  obtain ⟨f1, f2, f3, f4, f5, -⟩ := setup_facts ha hs ho hw hsteps hf
  obtain ⟨o, val, hio, hops, hval⟩ := setup_interactive hi ho
  obtain ⟨l1, l2, hll⟩ := List.append_of_mem hm
  have hn := (ht.names _ hm).1
  rw [hll] at hio
  obtain ⟨o1, oi, o2, eo, -, e2, e3⟩ := ifacesOps_split hio
  -- what comes later does not touch the directory of the interface
  have hlater : ∀ f : Str, Name f → ∀ c, Op.write (join [j.root, name ++ c!"/bin/" ++ f]) c ∉ o2 ++ val := by
    intro f hf' c hmem
    rcases List.mem_append.1 hmem with hmem | hmem
    · obtain ⟨n, hn', f', hf''⟩ := ifacesOps_dir hr ht (fun g hg => by rw [hll]; simp [hg]) e3 hmem
      rw [names_bin_file hr hn hf'] at hf''
      have := List.append_cancel_left hf''
      simp only [List.cons.injEq] at this
      rw [hll, List.map_append, List.map_cons] at hkeys
      have hk := (List.nodup_cons.1 (List.nodup_append.1 hkeys).2.1).1
      exact hk (this.1 ▸ hn')
    · exact hval _ _ hmem
  -- a file written in the interface's own steps and not again there
  have key : ∀ (A B : List Op) (f c : Str), Name f →
      oi = A ++ Op.write (join [j.root, name ++ c!"/bin/" ++ f]) c :: B →
      (∀ c', Op.write (join [j.root, name ++ c!"/bin/" ++ f]) c' ∉ B) →
      (execOps steps fs).1.read (join [j.root, name, c!"bin", f]) = some c := by
    intro A B f c hf' he hB
    have hsp : steps.map Prod.fst = (binDirs j bs ++
        Op.copy (join [j.inputPath, c!"interactive/Main." ++ extension ia.parentLang])
          (join [j.root, c!"Main/bin/Main." ++ extension ia.parentLang]) :: (o1 ++ A)) ++
        Op.write (join [j.root, name ++ c!"/bin/" ++ f]) c :: (B ++ (o2 ++ val)) := by
      rw [hsteps, hops, eo, he]; simp
    obtain ⟨a, w, e, b, hst, -, hb⟩ := steps_split hsp
    rw [hst] at f2 f3 f4 f5 hok ⊢
    have := exec_last a b _ c w e f1 f2 f3 f4 f5 (by
      intro s hs' c' he'
      have hmem : s.1 ∈ B ++ (o2 ++ val) := by rw [← hb]; exact List.mem_map.2 ⟨s, hs', rfl⟩
      rw [he'] at hmem
      rcases List.mem_append.1 hmem with hmem | hmem
      · exact hB c' hmem
      · exact hlater f hf' c' hmem) hok
    rw [show join [j.root, name, c!"bin", f] = join [j.root, name ++ c!"/bin/" ++ f] from ?_]
    · exact this
    · apply join_eq_of_names hr hr rfl
      rw [names_bin_file hr hn hf', names_join_plain hr]
      intro x hx
      simp only [List.mem_cons, List.not_mem_nil, or_false] at hx
      rcases hx with rfl | rfl | rfl
      · exact hn
      · exact name_bin
      · exact hf'
  have inj : ∀ f f' : Str, Name f → Name f' →
      join [j.root, name ++ c!"/bin/" ++ f] = join [j.root, name ++ c!"/bin/" ++ f'] → f = f' := by
    intro f f' hf1 hf2 h
    have h2 := names_bin_file hr hn hf1
    rw [h, names_bin_file hr hn hf2] at h2
    have := List.append_cancel_left h2
    simpa using this.symm
  unfold ifaceOps at e2
  simp only at e2
  cases hg : get (if name = c!"Main" then extension ia.parentLang else extension j.language) langs with
  | none => rw [hg] at e2; simp at e2
  | some iface =>
    rw [hg] at e2
    simp only [Option.some.injEq] at e2
    refine ⟨fun hM => ?_, ?_⟩
    · rw [if_neg hM] at e2
      have h1 := e2.symm
      simp only [List.append_assoc] at h1
      exact key _ _ _ j.source ht.moduleName (by simpa using h1) (by simp)
    · intro iface' hif hnd g hgm hne
      cases hif
      obtain ⟨g1, g2, hgg⟩ := List.append_of_mem hgm
      have hgn := (ht.files _ hm _ (get_mem hg) g hgm).1
      have h1 := e2.symm
      rw [hgg, List.map_append, List.map_cons, List.append_assoc, List.cons_append] at h1
      refine key _ _ _ g.2 hgn h1 ?_
      · intro c' hmem
        rcases List.mem_append.1 hmem with hmem | hmem
        · obtain ⟨g', hg', he⟩ := List.mem_map.1 hmem
          have hgn' := (ht.files _ hm _ (get_mem hg) g' (by rw [hgg]; simp [hg'])).1
          have := inj _ _ hgn' hgn (Op.write.inj he).1
          rw [hgg, List.map_append, List.map_cons] at hnd
          have hk := (List.nodup_cons.1 (List.nodup_append.1 hnd).2.1).1
          exact hk (List.mem_map.2 ⟨g', hg', this⟩)
        · by_cases hM : name = c!"Main"
          · rw [if_pos hM] at hmem; simp at hmem
          · rw [if_neg hM] at hmem
            simp only [List.mem_cons, Op.write.injEq, List.not_mem_nil, reduceCtorEq, or_false] at hmem
            have h1 := hmem.1
            have := inj _ _ hgn ht.moduleName (by rw [h1]; simp)
            exact hne hM this

theorem join_mainbin {d lang : Str} (hd : d ≠ []) (hl : '/' ∉ lang) :
    join [d, c!"Main", c!"bin", c!"Main." ++ extension lang] = join [d, c!"Main/bin/Main." ++ extension lang] := by
  apply join_eq_of_names hd hd rfl
  have hn : ∀ e ∈ [c!"Main", c!"bin", c!"Main." ++ extension lang], Name e := by
    intro x hx
    simp only [List.mem_cons, List.not_mem_nil, or_false] at hx
    rcases hx with rfl | rfl | rfl
    · exact name_Main
    · exact name_bin
    · exact name_ext (a := c!"Main") (by decide) (by decide) (slash_extension hl)
  exact (names_join_plain hd hn).trans (names_dst_main hd hl).symm

theorem join_interactive {d x : Str} (hd : d ≠ []) (hx : Name x) :
    join [d, c!"interactive", x] = join [d, c!"interactive" ++ '/' :: x] := by
  have hn : ∀ e ∈ [c!"interactive", x], Name e := by
    intro e he
    simp only [List.mem_cons, List.not_mem_nil, or_false] at he
    rcases he with rfl | rfl
    · decide
    · exact hx
  exact (join_render hd hn (by simp)).symm

/-- C90, the program of the problem: once everything is set up, the parent's source is the file of the input. -/
theorem C90_parent (j : Job) (ha : Apart j) (hs : NoSlashes j) (hl : '/' ∉ j.language) (ia : Interactive)
    (hi : j.interactive = some ia) (ht : Tidy j ia)
    (bs : List Binary) (ops : List Op) (ho : setupOps j bs = some ops)
    (steps : List (Op × Bool × CopyEnv)) (hsteps : steps.map Prod.fst = ops) (fs : FS) (hf : Fresh j fs)
    (hworks : ∀ s ∈ steps, s.2.2.Works) (hok : (execOps steps fs).2 = false) :
    (execOps steps fs).1.read (join [j.root, c!"Main", c!"bin", c!"Main." ++ extension ia.parentLang]) =
      fs.read (join [j.inputPath, c!"interactive", c!"Main." ++ extension ia.parentLang]) := by
  have hr := ha.root
  have hw : ∀ p c, Op.write p c ∈ ops → Free j p :=
    C92_setup_free hr hs hl (fun ia' hi' => by rw [hi] at hi'; cases hi'; exact ht) ho
  obtain ⟨f1, f2, f3, f4, f5, f6⟩ := setup_facts ha hs ho hw hsteps hf
  obtain ⟨o, val, hio, hops, hval⟩ := setup_interactive hi ho
  have hsp : steps.map Prod.fst = binDirs j bs ++
      Op.copy (join [j.inputPath, c!"interactive/Main." ++ extension ia.parentLang])
        (join [j.root, c!"Main/bin/Main." ++ extension ia.parentLang]) :: (o ++ val) := by
    rw [hsteps, hops]; simp
  obtain ⟨a, w, e, b, hst, -, hb⟩ := steps_split hsp
  rw [hst] at f2 f3 f4 f5 f6 hok hworks ⊢
  have hx := (src_not_within ha hs).1 ia hi
  have := exec_copied a b _ _ w e f1 f2 f3 f4 f5 (fun h => hx (f6 _ h)) 
    (hworks _ (List.mem_append_right a (List.mem_cons_self ..))) hok
  have hpl := hs.parent ia hi
  have hnm : Name (c!"Main." ++ extension ia.parentLang) :=
    name_ext (a := c!"Main") (by decide) (by decide) (slash_extension hpl)
  have e1 : join [j.root, c!"Main", c!"bin", c!"Main." ++ extension ia.parentLang] =
      join [j.root, c!"Main/bin/Main." ++ extension ia.parentLang] := by
    exact join_mainbin hr hpl
  have e2 : join [j.inputPath, c!"interactive", c!"Main." ++ extension ia.parentLang] =
      join [j.inputPath, c!"interactive/Main." ++ extension ia.parentLang] := by
    exact join_interactive ha.input hnm
  rw [e1, e2]
  exact this

/-- C90: nothing of the contestant is put into the directory of the parent: a file written there is one of the
interface `Main`. -/
theorem C90_parent_dir (j : Job) (hr : j.root ≠ []) (ia : Interactive) (hi : j.interactive = some ia)
    (ht : Tidy j ia) (bs : List Binary) (ops : List Op) (ho : setupOps j bs = some ops) (p c : Str)
    (hp : Op.write p c ∈ ops) (hw : Within (join [j.root, c!"Main"]) p) :
    ∃ f ∈ ia.interfaces, f.1 = c!"Main" ∧ ∃ l ∈ f.2, ∃ g ∈ l.2.files, g.2 = c := by
  obtain ⟨o, val, hio, hops, hval⟩ := setup_interactive hi ho
  have hpo : Op.write p c ∈ o := by
    rw [hops] at hp
    rcases List.mem_append.1 hp with hp | hp
    · rcases List.mem_append.1 hp with hp | hp
      · simp [binDirs] at hp
      · rcases List.mem_cons.1 hp with hp | hp
        · cases hp
        · exact hp
    · exact absurd hp (hval p c)
  have hex : ∀ (fs : List (Str × List (Str × Iface))) (o : List Op), ifacesOps j ia (ia.interfaces.map Prod.fst) fs = some o →
      Op.write p c ∈ o → ∃ f ∈ fs, ∃ o', ifaceOps j ia (ia.interfaces.map Prod.fst) f.1 f.2 = some o' ∧ Op.write p c ∈ o' := by
    intro fs
    induction fs with
    | nil => intro o h hm; simp only [ifacesOps, Option.some.injEq] at h; subst h; simp at hm
    | cons f fs ih =>
      intro o h hm
      obtain ⟨name, langs⟩ := f
      rw [ifacesOps] at h
      cases h1 : ifaceOps j ia (ia.interfaces.map Prod.fst) name langs with
      | none => simp [h1] at h
      | some o1 =>
        cases h2 : ifacesOps j ia (ia.interfaces.map Prod.fst) fs with
        | none => simp [h1, h2] at h
        | some o2 =>
          simp only [h1, h2, Option.some.injEq] at h
          subst h
          rcases List.mem_append.1 hm with hm | hm
          · exact ⟨(name, langs), by simp, o1, h1, hm⟩
          · obtain ⟨f, hf, o', h3, h4⟩ := ih o2 h2 hm
            exact ⟨f, by simp [hf], o', h3, h4⟩
  obtain ⟨⟨name, langs⟩, hf, o', h1, h2⟩ := hex _ _ hio hpo
  obtain ⟨f', hd⟩ := ifaceOps_dir hr ht hf h1 h2
  have hM : name = c!"Main" := by
    have := hw.2
    rw [names_join_plain hr (by intro x hx; rw [List.mem_singleton.1 hx]; exact name_Main), hd,
      List.prefix_append_right_inj] at this
    obtain ⟨t, ht'⟩ := this
    simp only [List.cons_append, List.nil_append, List.cons.injEq] at ht'
    exact ht'.1.symm
  refine ⟨(name, langs), hf, hM, ?_⟩
  unfold ifaceOps at h1
  simp only at h1
  cases hg : get (if name = c!"Main" then extension ia.parentLang else extension j.language) langs with
  | none => rw [hg] at h1; simp at h1
  | some iface =>
    rw [hg] at h1
    simp only [Option.some.injEq] at h1
    subst h1
    rcases List.mem_append.1 h2 with h2 | h2
    · obtain ⟨g, hg', he⟩ := List.mem_map.1 h2
      exact ⟨_, get_mem hg, g, hg', (Op.write.inj he).2⟩
    · rw [if_pos hM] at h2
      simp at h2

end Quark.Sandbox
