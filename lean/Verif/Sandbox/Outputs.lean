import Mathlib.Data.List.Nodup
import Verif.Sandbox.Isolation

/-! # The files that programs write (C88) and that are sent back (C89) -/

namespace Quark.Sandbox

open Path Spec

/-! ## The programs, as lists -/

theorem children_names {j : Job} {ia : Interactive} {fs : List (Str × List (Str × Iface))} {bs : List Binary}
    (h : children j ia fs = .ok bs) : bs.map Binary.name = (fs.map Prod.fst).filter (· ≠ ia.main) ∧
      bs.map Binary.outputPathPrefix = bs.map Binary.name ∧ ∀ b ∈ bs, b.type = .contestant := by
  induction fs generalizing bs with
  | nil => simp only [children, Prepared.ok.injEq] at h; subst h; simp
  | cons f fs ih =>
    obtain ⟨name, langs⟩ := f
    rw [children] at h
    by_cases hm : name = ia.main
    · rw [if_pos hm] at h
      simpa [hm] using ih h
    · rw [if_neg hm] at h
      cases hg : get (extension j.language) langs with
      | none => simp [hg] at h
      | some iface =>
        simp only [hg] at h
        cases hr : iface.requisites with
        | none => simp [hr] at h
        | some rs =>
          simp only [hr] at h
          cases hc : children j ia fs with
          | panics => simp [hc] at h
          | unsupported => simp [hc] at h
          | ok bs' =>
            simp only [hc, Prepared.ok.injEq] at h
            subst h
            obtain ⟨h1, h2, h3⟩ := ih hc
            refine ⟨?_, ?_, ?_⟩
            · rw [List.map_cons, h1, List.map_cons, List.filter_cons_of_pos (by simpa using hm)]
              rfl
            · rw [List.map_cons, List.map_cons, h2]
              rfl
            · intro b hb
              rcases List.mem_cons.1 hb with rfl | hb
              · rfl
              · exact h3 b hb

/-- The programs that run on the cases, and the validator. -/
theorem binaries_split {j : Job} {bs : List Binary} (h : binaries j = .ok bs) :
    ∃ rb, regularBinaries j = .ok rb ∧ bs.filter (fun b => b.type ≠ .validator) = rb ∧
      bs.map Binary.name = rb.map Binary.name ++ (match j.validator with
        | some _ => [c!"validator"]
        | none => []) ∧
      ((j.interactive = none ∧ rb = (if j.language = c!"cat" then [] else [mainBinary j])) ∨
       ∃ ia rs cs, j.interactive = some ia ∧ rb = parentBinary j ia rs :: cs ∧ children j ia ia.interfaces = .ok cs) := by
  unfold binaries at h
  cases hr : regularBinaries j with
  | panics => simp [hr] at h
  | unsupported => simp [hr] at h
  | ok rb =>
    simp only [hr, Prepared.ok.injEq] at h
    subst h
    have hs : (j.interactive = none ∧ rb = (if j.language = c!"cat" then [] else [mainBinary j])) ∨
       ∃ ia rs cs, j.interactive = some ia ∧ rb = parentBinary j ia rs :: cs ∧
        children j ia ia.interfaces = .ok cs := by
      unfold regularBinaries at hr
      cases hi : j.interactive with
      | none =>
        simp only [hi] at hr
        refine Or.inl ⟨rfl, ?_⟩
        split at hr <;> (rename_i hl; simp only [Prepared.ok.injEq] at hr; simp [hl, hr.symm])
      | some ia =>
        simp only [hi] at hr
        cases hg : (get ia.main ia.interfaces).bind (get ia.parentLang) with
        | none => simp [hg] at hr
        | some iface =>
          simp only [hg] at hr
          cases hq : iface.requisites with
          | none => simp [hq] at hr
          | some rs =>
            simp only [hq] at hr
            cases hc : children j ia ia.interfaces with
            | panics => simp [hc] at hr
            | unsupported => simp [hc] at hr
            | ok cs =>
              simp only [hc, Prepared.ok.injEq] at hr
              exact Or.inr ⟨ia, rs, cs, rfl, hr.symm, hc⟩
    have hty : ∀ b ∈ rb, b.type ≠ .validator := by
      intro b hb
      rcases hs with ⟨_, h⟩ | ⟨ia, rs, cs, _, h, hc⟩
      · rw [h] at hb
        split at hb
        · simp at hb
        · rw [List.mem_singleton.1 hb]; simp [mainBinary]
      · rw [h] at hb
        rcases List.mem_cons.1 hb with rfl | hb
        · simp [parentBinary]
        · rw [(children_names hc).2.2 b hb]; simp
    refine ⟨rb, rfl, ?_, ?_, hs⟩
    · rw [List.filter_append, List.filter_eq_self.2 (by simpa using hty)]
      cases j.validator <;> simp [validatorBinary]
    · rw [List.map_append]
      cases j.validator <;> rfl

/-! ## C88 -/

def exts : List Str := [c!".out", c!".err", c!".meta"]

theorem append_ext {c c' e e' : Str} (he : e ∈ exts) (he' : e' ∈ exts) (h : c ++ e = c' ++ e') : c = c' ∧ e = e' := by
  have h1 := congrArg List.getLast? h
  have : e = e' := by
    simp only [exts, List.mem_cons, List.not_mem_nil, or_false] at he he'
    rcases he with rfl | rfl | rfl <;> rcases he' with rfl | rfl | rfl <;> simp at h1 <;> rfl
  subst this
  exact ⟨List.append_cancel_right h, rfl⟩

theorem ext_name {c e : Str} (hc : '/' ∉ c) (he : e ∈ exts) : Name (c ++ e) := by
  have : '/' ∉ e ∧ 3 ≤ e.length := by
    revert e
    decide
  refine ⟨⟨?_, ?_, ?_⟩, ?_⟩
  · intro h
    have := congrArg List.length h
    rw [List.length_append] at this
    simp only [List.length_nil] at this
    omega
  · intro h
    have := congrArg List.length h
    simp [dot] at this
    omega
  · simp only [List.mem_append, not_or]
    exact ⟨hc, this.1⟩
  · intro h
    have := congrArg List.length h
    simp [dotdot] at this
    omega

/-- The directory below that of the run where a program's outputs go. -/
def dirOf (p : Str) : List Str := if p = [] then [] else [p]

/-- Where outputs go, below the directory of the run. -/
def compileSlots (b : Binary) : List (List Str) := exts.map fun e => [b.name, c!"compile" ++ e]
def runSlots (case : Str) (b : Binary) : List (List Str) :=
  exts.map fun e => dirOf b.outputPathPrefix ++ [case ++ e]
def validatorSlots (case : Str) : List (List Str) := exts.map fun e => [c!"validator", case ++ e]

/-- All outputs of a run: of compiling, running the cases and validating them. -/
def outputs (j : Job) (bs : List Binary) : List Str :=
  bs.flatMap (fun b => (compileCall j b).outputs) ++
  (runCalls j bs).flatMap RunCall.outputs ++
  match j.validator with
  | some lang => j.cases.flatMap fun c => (validatorCall j lang c true).outputs
  | none => []

theorem nodup_exts_map {α : Type} (f : Str → α) (hf : ∀ a ∈ exts, ∀ b ∈ exts, f a = f b → a = b) :
    (exts.map f).Nodup :=
  List.Nodup.map_on (fun a ha b hb h => hf a ha b hb h) (by decide)

theorem compile_outputs {j : Job} (hr : j.root ≠ []) (b : Binary) :
    (compileCall j b).outputs = (compileSlots b).map fun es => join (j.root :: es) := by
  simp only [CompileCall.outputs, compileCall, compileSlots, exts, List.map_cons, List.map_nil, join_join hr]
  rfl

theorem join_skip {d : Str} (hd : d ≠ []) (e : Str) : join [d, [], e] = join [d, e] := by
  apply join_eq_of_names hd hd rfl
  rw [names_join hd, names_join hd]
  simp [show elems ([] : Str) = [[]] from rfl, push]

theorem run_outputs {j : Job} (hr : j.root ≠ []) (case : Str) (b : Binary) :
    (runCall j case b).outputs = (runSlots case b).map fun es => join (j.root :: es) := by
  simp only [RunCall.outputs, runCall, runSlots, exts, List.map_cons, List.map_nil]
  unfold dirOf
  by_cases h : b.outputPathPrefix = []
  · rw [h, if_pos rfl, join_skip hr, join_skip hr, join_skip hr]; rfl
  · rw [if_neg h]; rfl

theorem validator_outputs (j : Job) (lang case : Str) (o : Bool) :
    (validatorCall j lang case o).outputs = (validatorSlots case).map fun es => join (j.root :: es) := rfl

/-- Where all outputs of a run go. -/
def slots (j : Job) (bs : List Binary) : List (List Str) :=
  bs.flatMap compileSlots ++
  j.cases.flatMap (fun c => (bs.filter fun b => b.type ≠ .validator).flatMap (runSlots c)) ++
  match j.validator with
  | some _ => j.cases.flatMap validatorSlots
  | none => []

theorem outputs_eq {j : Job} (hr : j.root ≠ []) (bs : List Binary) :
    outputs j bs = (slots j bs).map fun es => join (j.root :: es) := by
  unfold outputs slots
  rw [List.map_append, List.map_append, List.map_flatMap, List.map_flatMap]
  congr 1
  · congr 1
    · congr 1
      funext b
      exact compile_outputs hr b
    · unfold runCalls
      rw [List.flatMap_assoc]
      congr 1
      funext c
      rw [List.flatMap_map, List.map_flatMap]
      congr 1
      funext b
      exact run_outputs hr c b
  · cases j.validator with
    | none => rfl
    | some lang =>
      simp only
      rw [List.map_flatMap]
      rfl

theorem nodup_flatMap_of {α β : Type} {l : List α} {f : α → List β} (hl : l.Nodup) (h1 : ∀ x ∈ l, (f x).Nodup)
    (h2 : ∀ x ∈ l, ∀ y ∈ l, ∀ z, z ∈ f x → z ∈ f y → x = y) : (l.flatMap f).Nodup := by
  rw [List.nodup_flatMap]
  refine ⟨h1, hl.imp_of_mem ?_⟩
  intro a b ha hb hab z hz hz'
  exact hab (h2 a ha b hb z hz hz')

theorem dirOf_inj {p q : Str} {a b : Str} (h : dirOf p ++ [a] = dirOf q ++ [b]) : p = q ∧ a = b := by
  unfold dirOf at h
  by_cases hp : p = []
  · by_cases hq : q = []
    · simp [hp, hq] at h
      exact ⟨hp.trans hq.symm, h⟩
    · simp [hp, hq] at h
  · by_cases hq : q = []
    · simp [hp, hq] at h
    · simpa [hp, hq] using h

theorem outputs_nodup (j : Job) (bs : List Binary) (h : binaries j = .ok bs) (hr : j.root ≠ [])
    (hnames : ∀ b ∈ bs, Name b.name)
    (hkeys : ∀ ia, j.interactive = some ia → (ia.interfaces.map Prod.fst).Nodup)
    (hval : ∀ ia, j.interactive = some ia → j.validator ≠ none → c!"validator" ∉ ia.main :: ia.interfaces.map Prod.fst)
    (hcases : j.cases.Nodup) (hslash : ∀ c ∈ j.cases, '/' ∉ c)
    (hcompile : c!"compile" ∈ j.cases → j.validator = none ∧
      ∀ ia, j.interactive = some ia → ∀ k ∈ ia.interfaces.map Prod.fst, k = ia.main) :
    (outputs j bs).Nodup := by
  obtain ⟨rb, hrb, hfil, hnm, hstr⟩ := binaries_split h
  -- facts about the programs
  have hrbn : (rb.map Binary.name).Nodup ∧ (rb.map Binary.outputPathPrefix).Nodup ∧
      (∀ b ∈ rb, b.outputPathPrefix = [] ∨ (b.outputPathPrefix = b.name ∧ Name b.name)) ∧
      (∀ b ∈ rb, b.outputPathPrefix = [] ∨
        ∃ ia, j.interactive = some ia ∧ b.name ∈ ia.interfaces.map Prod.fst ∧ b.name ≠ ia.main) ∧
      (j.validator ≠ none → c!"validator" ∉ rb.map Binary.name) := by
    rcases hstr with ⟨hi, he⟩ | ⟨ia, rs, cs, hi, he, hc⟩
    · rw [he]
      split
      · simp
      · simp [mainBinary]
    · obtain ⟨c1, c2, -⟩ := children_names hc
      have hcn : ∀ b ∈ cs, Name b.name := by
        intro b hb
        have : b.name ∈ bs.map Binary.name := by
          rw [hnm, he]
          exact List.mem_append_left _ (List.mem_map.2 ⟨b, by simp [hb], rfl⟩)
        obtain ⟨b', hb', hbn⟩ := List.mem_map.1 this
        rw [← hbn]; exact hnames b' hb'
      have hcnd : (cs.map Binary.name).Nodup := by
        rw [c1]; exact (hkeys ia hi).filter _
      have hpre : ∀ b ∈ cs, b.outputPathPrefix = b.name := by
        intro b hb
        exact List.map_inj_left.1 c2 b hb
      rw [he]
      refine ⟨?_, ?_, ?_, ?_, ?_⟩
      · rw [List.map_cons, List.nodup_cons]
        refine ⟨?_, hcnd⟩
        rw [c1]
        simp [parentBinary]
      · rw [List.map_cons, List.nodup_cons, c2]
        refine ⟨?_, hcnd⟩
        intro hm
        obtain ⟨b, hb, hbn⟩ := List.mem_map.1 hm
        exact (hcn b hb).1.1 hbn
      · intro b hb
        rcases List.mem_cons.1 hb with rfl | hb
        · exact Or.inl rfl
        · exact Or.inr ⟨hpre b hb, hcn b hb⟩
      · intro b hb
        rcases List.mem_cons.1 hb with rfl | hb
        · exact Or.inl rfl
        · have hm : b.name ∈ cs.map Binary.name := List.mem_map_of_mem hb
          rw [c1, List.mem_filter] at hm
          exact Or.inr ⟨ia, hi, hm.1, by simpa using hm.2⟩
      · intro hv hm
        apply hval ia hi hv
        rw [List.map_cons, c1] at hm
        rcases List.mem_cons.1 hm with hm | hm
        · rw [hm]; exact List.mem_cons_self ..
        · exact List.mem_cons_of_mem _ (List.mem_of_mem_filter hm)
  obtain ⟨n1, n2, n3, n5, n4⟩ := hrbn
  have hbsn : (bs.map Binary.name).Nodup := by
    rw [hnm]
    cases hv : j.validator with
    | none => simpa using n1
    | some lang =>
      simp only
      rw [List.nodup_append]
      refine ⟨n1, by simp, ?_⟩
      intro a ha b hb hab
      rw [List.mem_singleton.1 hb] at hab
      exact n4 (by rw [hv]; simp) (hab ▸ ha)
  have hbs : bs.Nodup := hbsn.of_map
  have hrb' : rb.Nodup := n1.of_map
  have inj1 : ∀ x ∈ bs, ∀ y ∈ bs, x.name = y.name → x = y := fun x hx y hy he =>
    List.inj_on_of_nodup_map hbsn hx hy he
  have inj2 : ∀ x ∈ rb, ∀ y ∈ rb, x.outputPathPrefix = y.outputPathPrefix → x = y := fun x hx y hy he =>
    List.inj_on_of_nodup_map n2 hx hy he
  have memC : ∀ b z, z ∈ compileSlots b → ∃ e ∈ exts, z = [b.name, c!"compile" ++ e] := by
    intro b z hz
    obtain ⟨e, he, rfl⟩ := List.mem_map.1 hz
    exact ⟨e, he, rfl⟩
  have memR : ∀ c b z, z ∈ runSlots c b → ∃ e ∈ exts, z = dirOf b.outputPathPrefix ++ [c ++ e] := by
    intro c b z hz
    obtain ⟨e, he, rfl⟩ := List.mem_map.1 hz
    exact ⟨e, he, rfl⟩
  have memV : ∀ c z, z ∈ validatorSlots c → ∃ e ∈ exts, z = [c!"validator", c ++ e] := by
    intro c z hz
    obtain ⟨e, he, rfl⟩ := List.mem_map.1 hz
    exact ⟨e, he, rfl⟩
  -- each part
  have d1 : (bs.flatMap compileSlots).Nodup := by
    apply nodup_flatMap_of hbs
    · intro b _
      apply nodup_exts_map
      intro a ha b hb he
      simp only [List.cons.injEq, and_true, true_and] at he
      exact (append_ext ha hb he).2
    · intro x hx y hy z hz hz'
      obtain ⟨e, _, h1⟩ := memC x z hz
      obtain ⟨e', _, h2⟩ := memC y z hz'
      rw [h1] at h2
      simp only [List.cons.injEq] at h2
      exact inj1 x hx y hy h2.1
  have d2 : (j.cases.flatMap fun c => rb.flatMap (runSlots c)).Nodup := by
    apply nodup_flatMap_of hcases
    · intro c _
      apply nodup_flatMap_of hrb'
      · intro b _
        apply nodup_exts_map
        intro a ha a' ha' he
        exact (append_ext ha ha' (dirOf_inj he).2).2
      · intro x hx y hy z hz hz'
        obtain ⟨e, _, h1⟩ := memR c x z hz
        obtain ⟨e', _, h2⟩ := memR c y z hz'
        rw [h1] at h2
        exact inj2 x hx y hy (dirOf_inj h2).1
    · intro c _ c' _ z hz hz'
      obtain ⟨x, hx, hz⟩ := List.mem_flatMap.1 hz
      obtain ⟨y, hy, hz'⟩ := List.mem_flatMap.1 hz'
      obtain ⟨e, he, h1⟩ := memR c x z hz
      obtain ⟨e', he', h2⟩ := memR c' y z hz'
      rw [h1] at h2
      exact (append_ext he he' (dirOf_inj h2).2).1
  have d3 : (j.cases.flatMap validatorSlots).Nodup := by
    apply nodup_flatMap_of hcases
    · intro c _
      apply nodup_exts_map
      intro a ha a' ha' he
      simp only [List.cons.injEq, and_true, true_and] at he
      exact (append_ext ha ha' he).2
    · intro c _ c' _ z hz hz'
      obtain ⟨e, he, h1⟩ := memV c z hz
      obtain ⟨e', he', h2⟩ := memV c' z hz'
      rw [h1] at h2
      simp only [List.cons.injEq, and_true, true_and] at h2
      exact (append_ext he he' h2).1
  have x12 : ∀ z, z ∈ bs.flatMap compileSlots → z ∉ j.cases.flatMap fun c => rb.flatMap (runSlots c) := by
    intro z hz hz'
    obtain ⟨b, hb, hz⟩ := List.mem_flatMap.1 hz
    obtain ⟨c, hc, hz'⟩ := List.mem_flatMap.1 hz'
    obtain ⟨b', hb', hz'⟩ := List.mem_flatMap.1 hz'
    obtain ⟨e, he, h1⟩ := memC b z hz
    obtain ⟨e', he', h2⟩ := memR c b' z hz'
    rw [h1] at h2
    have : [c!"compile" ++ e] = [c ++ e'] := by
      have := congrArg List.getLast? h2
      simpa using this
    simp only [List.cons.injEq, and_true] at this
    have hcc : c!"compile" ∈ j.cases := (append_ext he he' this).1 ▸ hc
    rcases n5 b' hb' with h3 | ⟨ia, hi, hk, hne⟩
    · rw [h3] at h2; simp [dirOf] at h2
    · exact hne ((hcompile hcc).2 ia hi _ hk)
  have x13 : j.validator ≠ none → ∀ z, z ∈ bs.flatMap compileSlots → z ∉ j.cases.flatMap validatorSlots := by
    intro hv z hz hz'
    obtain ⟨b, hb, hz⟩ := List.mem_flatMap.1 hz
    obtain ⟨c, hc, hz'⟩ := List.mem_flatMap.1 hz'
    obtain ⟨e, he, h1⟩ := memC b z hz
    obtain ⟨e', he', h2⟩ := memV c z hz'
    rw [h1] at h2
    simp only [List.cons.injEq, and_true] at h2
    exact hv (hcompile ((append_ext he he' h2.2).1 ▸ hc)).1
  have x23 : j.validator ≠ none → ∀ z, (z ∈ j.cases.flatMap fun c => rb.flatMap (runSlots c)) →
      z ∉ j.cases.flatMap validatorSlots := by
    intro hv z hz hz'
    obtain ⟨c, hc, hz⟩ := List.mem_flatMap.1 hz
    obtain ⟨b, hb, hz⟩ := List.mem_flatMap.1 hz
    obtain ⟨c', hc', hz'⟩ := List.mem_flatMap.1 hz'
    obtain ⟨e, he, h1⟩ := memR c b z hz
    obtain ⟨e', he', h2⟩ := memV c' z hz'
    rw [h1, show [c!"validator", c' ++ e'] = dirOf c!"validator" ++ [c' ++ e'] from rfl] at h2
    have := (dirOf_inj h2).1
    rcases n3 b hb with h3 | ⟨h3, -⟩
    · rw [h3] at this; simp at this
    · exact n4 hv (List.mem_map.2 ⟨b, hb, h3.symm.trans this⟩)
  have hsl : (slots j bs).Nodup := by
    unfold slots
    rw [hfil]
    cases hv : j.validator with
    | none =>
      simp only [List.append_nil]
      rw [List.nodup_append]
      exact ⟨d1, d2, fun a ha b hb hab => x12 a ha (hab ▸ hb)⟩
    | some lang =>
      simp only
      rw [List.nodup_append, List.nodup_append]
      refine ⟨⟨d1, d2, fun a ha b hb hab => x12 a ha (hab ▸ hb)⟩, d3, ?_⟩
      intro a ha b hb hab
      subst hab
      rcases List.mem_append.1 ha with ha | ha
      · exact x13 (by rw [hv]; simp) a ha hb
      · exact x23 (by rw [hv]; simp) a ha hb
  -- and the names are plain
  have hplain : ∀ es ∈ slots j bs, ∀ e ∈ es, Name e := by
    intro es hes
    unfold slots at hes
    rw [hfil] at hes
    rcases List.mem_append.1 hes with hes | hes
    · rcases List.mem_append.1 hes with hes | hes
      · obtain ⟨b, hb, hz⟩ := List.mem_flatMap.1 hes
        obtain ⟨e, he, rfl⟩ := memC b es hz
        intro x hx
        simp only [List.mem_cons, List.not_mem_nil, or_false] at hx
        rcases hx with rfl | rfl
        · exact hnames b hb
        · exact ext_name (by decide) he
      · obtain ⟨c, hc, hz⟩ := List.mem_flatMap.1 hes
        obtain ⟨b, hb, hz⟩ := List.mem_flatMap.1 hz
        obtain ⟨e, he, rfl⟩ := memR c b es hz
        intro x hx
        rcases List.mem_append.1 hx with hx | hx
        · rcases n3 b hb with h3 | ⟨h3, h4⟩
          · rw [h3] at hx; simp [dirOf] at hx
          · rw [h3] at hx
            unfold dirOf at hx
            rw [if_neg h4.1.1, List.mem_singleton] at hx
            rw [hx]; exact h4
        · rw [List.mem_singleton.1 hx]; exact ext_name (hslash c hc) he
    · cases hv : j.validator with
      | none => simp [hv] at hes
      | some lang =>
        simp only [hv] at hes
        obtain ⟨c, hc, hz⟩ := List.mem_flatMap.1 hes
        obtain ⟨e, he, rfl⟩ := memV c es hz
        intro x hx
        simp only [List.mem_cons, List.not_mem_nil, or_false] at hx
        rcases hx with rfl | rfl
        · exact name_validator
        · exact ext_name (hslash c hc) he
  rw [outputs_eq hr]
  refine List.Nodup.map_on ?_ hsl
  intro a ha b hb hab
  have := congrArg names hab
  rw [names_join_plain hr (hplain a ha), names_join_plain hr (hplain b hb)] at this
  exact List.append_cancel_left this

/-- **C88.** All outputs of compiling, running and validating, of all programs and cases, go to files of their own,
given that names are plain, no case is called `compile`, and no interface is called `validator` in a problem with a
custom validator. -/
theorem C88_outputs_distinct_partial (j : Job) (bs : List Binary) (h : binaries j = .ok bs) (hr : j.root ≠ [])
    (hnames : ∀ b ∈ bs, Name b.name)
    (hkeys : ∀ ia, j.interactive = some ia → (ia.interfaces.map Prod.fst).Nodup)
    (hval : ∀ ia, j.interactive = some ia → j.validator ≠ none → c!"validator" ∉ ia.main :: ia.interfaces.map Prod.fst)
    (hcases : j.cases.Nodup) (hslash : ∀ c ∈ j.cases, '/' ∉ c) (hcompile : c!"compile" ∉ j.cases) :
    (outputs j bs).Nodup :=
  outputs_nodup j bs h hr hnames hkeys hval hcases hslash fun hc => absurd hc hcompile

/-- Two occurrences. -/
theorem not_nodup_append {α : Type} {l l' : List α} {x : α} (h : x ∈ l) (h' : x ∈ l') : ¬ (l ++ l').Nodup := by
  intro hn
  rw [List.nodup_append] at hn
  exact hn.2.2 x h x h' rfl

/-- **C88**, exactly, given that names are plain: all outputs go to files of their own if and only if no interface is
called `validator` in a problem with a custom validator and, if a case is called `compile`, there is neither a custom
validator nor an interface besides the main one. -/
theorem C88_exactly_partial (j : Job) (bs : List Binary) (h : binaries j = .ok bs) (hr : j.root ≠ [])
    (hnames : ∀ b ∈ bs, Name b.name)
    (hkeys : ∀ ia, j.interactive = some ia → (ia.interfaces.map Prod.fst).Nodup)
    (hcases : j.cases.Nodup) (hslash : ∀ c ∈ j.cases, '/' ∉ c) :
    (outputs j bs).Nodup ↔
      (∀ ia, j.interactive = some ia → j.validator ≠ none → c!"validator" ∉ ia.main :: ia.interfaces.map Prod.fst) ∧
      (c!"compile" ∈ j.cases → j.validator = none ∧
        ∀ ia, j.interactive = some ia → ∀ k ∈ ia.interfaces.map Prod.fst, k = ia.main) := by
  refine ⟨fun hn => ?_, fun hh => outputs_nodup j bs h hr hnames hkeys hh.1 hcases hslash hh.2⟩
  obtain ⟨rb, hrb, hfil, hnm, hstr⟩ := binaries_split h
  have hsl : (slots j bs).Nodup := by
    rw [outputs_eq hr] at hn
    exact hn.of_map
  unfold slots at hsl
  rw [hfil] at hsl
  have hreg : ∀ ia, j.interactive = some ia → ∀ k ∈ ia.main :: ia.interfaces.map Prod.fst, k ∈ rb.map Binary.name := by
    intro ia hi k hk
    rcases hstr with ⟨hi', -⟩ | ⟨ia', rs, cs, hi', he, hc⟩
    · rw [hi] at hi'; cases hi'
    · rw [hi] at hi'
      injection hi' with hi'
      subst hi'
      rw [he, List.map_cons, (children_names hc).1]
      by_cases hkm : k = ia.main
      · rw [hkm]; exact List.mem_cons_self ..
      · refine List.mem_cons_of_mem _ (List.mem_filter.2 ⟨?_, by simpa using hkm⟩)
        rcases List.mem_cons.1 hk with hk | hk
        · exact absurd hk hkm
        · exact hk
  have hcomp : ((bs.map Binary.name).flatMap fun n => exts.map fun e => [n, c!"compile" ++ e]).Nodup := by
    have := (List.nodup_append.1 (List.nodup_append.1 hsl).1).1
    rw [List.flatMap_map]
    exact this
  constructor
  · intro ia hi hv hm
    obtain ⟨lang, hv⟩ := Option.ne_none_iff_exists'.1 hv
    rw [hnm, hv, List.flatMap_append] at hcomp
    have hb := hreg ia hi _ hm
    exact not_nodup_append (x := [c!"validator", c!"compile" ++ c!".out"])
      (List.mem_flatMap.2 ⟨_, hb, by simp [exts]⟩) (by simp [exts]) hcomp
  · intro hc
    constructor
    · by_contra hv
      obtain ⟨lang, hv⟩ := Option.ne_none_iff_exists'.1 hv
      rw [hv] at hsl hnm
      have hb : c!"validator" ∈ bs.map Binary.name := by rw [hnm]; simp
      obtain ⟨b, hb, hbn⟩ := List.mem_map.1 hb
      refine not_nodup_append (x := [c!"validator", c!"compile" ++ c!".out"]) (List.mem_append_left _ ?_) ?_ hsl
      · exact List.mem_flatMap.2 ⟨b, hb, by simp [compileSlots, exts, hbn]⟩
      · exact List.mem_flatMap.2 ⟨_, hc, by simp [validatorSlots, exts]⟩
    · intro ia hi k hk
      by_contra hkm
      rcases hstr with ⟨hi', -⟩ | ⟨ia', rs, cs, hi', he, hcs⟩
      · rw [hi] at hi'; cases hi'
      · rw [hi] at hi'
        injection hi' with hi'
        subst hi'
        obtain ⟨c1, c2, -⟩ := children_names hcs
        have hkc : k ∈ cs.map Binary.name := by
          rw [c1]
          exact List.mem_filter.2 ⟨hk, by simpa using hkm⟩
        obtain ⟨b, hb, rfl⟩ := List.mem_map.1 hkc
        have hpre : b.outputPathPrefix = b.name := List.map_inj_left.1 c2 b hb
        have hbrb : b ∈ rb := by rw [he]; exact List.mem_cons_of_mem _ hb
        have hbbs : b ∈ bs := by
          rw [← hfil] at hbrb
          exact List.mem_of_mem_filter hbrb
        have hne : b.name ≠ [] := (hnames b hbbs).1.1
        refine not_nodup_append (x := [b.name, c!"compile" ++ c!".out"]) ?_ ?_ (List.nodup_append.1 hsl).1
        · exact List.mem_flatMap.2 ⟨b, hbbs, by simp [compileSlots, exts]⟩
        · refine List.mem_flatMap.2 ⟨_, hc, List.mem_flatMap.2 ⟨b, hbrb, ?_⟩⟩
          simp [runSlots, exts, dirOf, hpre, hne]

/-! ## C89 -/

theorem zipMembers_mem (root : Str) (contents : Str → Option Str) (files : List Str) (f x : Str) :
    (f, x) ∈ zipMembers root contents files ↔ f ∈ files ∧ contents (join [root, f]) = some x := by
  induction files with
  | nil => simp [zipMembers]
  | cons g files ih =>
    rw [zipMembers]
    cases hg : contents (join [root, g]) with
    | none =>
      simp only
      rw [ih]
      constructor
      · rintro ⟨h1, h2⟩; exact ⟨by simp [h1], h2⟩
      · rintro ⟨h1, h2⟩
        rcases List.mem_cons.1 h1 with rfl | h1
        · rw [hg] at h2; cases h2
        · exact ⟨h1, h2⟩
    | some c =>
      simp only [List.mem_cons, ih, Prod.mk.injEq]
      constructor
      · rintro (⟨rfl, rfl⟩ | ⟨h1, h2⟩)
        · exact ⟨Or.inl rfl, hg⟩
        · exact ⟨Or.inr h1, h2⟩
      · rintro ⟨rfl | h1, h2⟩
        · rw [hg] at h2; cases h2; exact Or.inl ⟨rfl, rfl⟩
        · exact Or.inr ⟨h1, h2⟩

theorem names_name {e : Str} (he : Name e) : names e = [e] := by
  unfold names
  rw [elems_noslash he.1.2.2]
  simp [push, he.1.1, he.1.2.1, he.2]

theorem rooted_name {e : Str} (he : Name e) : rooted e = false := by
  unfold rooted
  cases e with
  | nil => rfl
  | cons c e =>
    have := he.1.2.2
    simp only [List.mem_cons, not_or] at this
    simp only [List.head?_cons, Option.some.injEq, decide_eq_false_iff_not]
    exact fun h => this.1 h.symm

/-- A file below a directory, given by its path from there. -/
theorem join_render {d : Str} (hd : d ≠ []) {es : List Str} (hes : ∀ e ∈ es, Name e) (hne : es ≠ []) :
    join [d, slashed es] = join (d :: es) := by
  apply join_eq_of_names hd hd rfl
  rw [names_join hd, names_join hd]
  congr 2
  rw [List.flatMap_cons, List.flatMap_nil, List.append_nil, elems_slashed hne (fun e he => (hes e he).1.2.2),
    Files.flatMap_elems (fun e he => (hes e he).1.2.2)]

theorem join_two {a b : Str} (ha : Name a) (hb : Name b) : join [a, b] = slashed [a, b] := by
  have h1 := clean_join ha.1.1 [b]
  unfold clean at h1
  rw [rooted_join ha.1.1, rooted_name ha, names_join_plain ha.1.1 (by simpa using hb), names_name ha] at h1
  rw [← h1]; rfl

theorem join_one {b : Str} (hb : Name b) : join [([] : Str), b] = b := by
  have : join [([] : Str), b] = clean (slashed [b]) := by
    unfold join
    rw [List.dropWhile_cons_of_pos (by simp), List.dropWhile_cons_of_neg (by simpa using hb.1.1)]
  rw [this]
  show clean b = b
  unfold clean
  rw [rooted_name hb, names_name hb]
  rfl

/-- The path of an output from the directory of the run. -/
theorem caseFiles_eq {c : Str} (hc : '/' ∉ c) {b : Binary} (hb : b.outputPathPrefix = [] ∨ Name b.outputPathPrefix) :
    caseFiles c b = (runSlots c b).map slashed := by
  unfold caseFiles runSlots dirOf
  rcases hb with hb | hb
  · rw [hb, if_pos rfl]
    rw [join_one (ext_name hc (e := c!".out") (by decide)), join_one (ext_name hc (e := c!".err") (by decide)),
      join_one (ext_name hc (e := c!".meta") (by decide))]
    rfl
  · rw [if_neg hb.1.1]
    rw [join_two hb (ext_name hc (e := c!".out") (by decide)), join_two hb (ext_name hc (e := c!".err") (by decide)),
      join_two hb (ext_name hc (e := c!".meta") (by decide))]
    rfl

theorem compileFiles_eq {b : Binary} (hb : Name b.name) : compileFiles b = (compileSlots b).map slashed := by
  unfold compileFiles compileSlots
  rw [join_two hb (by decide), join_two hb (by decide), join_two hb (by decide)]
  rfl

theorem validationFiles_eq (c : Str) : validationFiles c = (validatorSlots c).map slashed := by
  unfold validationFiles validatorSlots
  simp [exts, slashed]

/-- The files a run has written: of compiling all programs, running those of `ran`, and validating; an output-only
run writes the outputs that were handed in (runner/runner.go:814-877). -/
def writtenFiles (j : Job) (bs : List Binary) (ran : List (Str × List Binary)) (validated : List Str) : List Str :=
  bs.flatMap (fun b => (compileCall j b).outputs) ++
  ran.flatMap (fun r =>
    if j.language = c!"cat" then
      [join [j.root, r.1 ++ c!".out"], join [j.root, r.1 ++ c!".err"], join [j.root, r.1 ++ c!".meta"]]
    else r.2.flatMap fun b => (runCall j r.1 b).outputs) ++
  match j.validator with
  | some lang => validated.flatMap fun c => (validatorCall j lang c true).outputs
  | none => []

/-- Names of the files sent back and of those written correspond. -/
theorem generated_written {j : Job} (hr : j.root ≠ []) {bs : List Binary}
    (hnames : ∀ b ∈ bs, Name b.name)
    {ran : List (Str × List Binary)}
    (hran : ∀ r ∈ ran, '/' ∉ r.1 ∧ ∀ b ∈ r.2, b.outputPathPrefix = [] ∨ Name b.outputPathPrefix)
    {validated : List Str} (hv : ∀ c ∈ validated, '/' ∉ c) :
    (generatedFiles j bs ran validated).map (fun f => join [j.root, f]) = writtenFiles j bs ran validated := by
  have conv : ∀ l : List (List Str), (∀ es ∈ l, es ≠ [] ∧ ∀ e ∈ es, Name e) →
      (l.map slashed).map (fun f => join [j.root, f]) = l.map fun es => join (j.root :: es) := by
    intro l hl'
    rw [List.map_map]
    apply List.map_congr_left
    intro es hes
    exact join_render hr (hl' es hes).2 (hl' es hes).1
  unfold generatedFiles writtenFiles
  rw [List.map_append, List.map_append, List.map_flatMap, List.map_flatMap]
  congr 1
  · congr 1
    · apply List.flatMap_congr
      intro b hb
      rw [compileFiles_eq (hnames b hb), compile_outputs hr, conv]
      intro es hes
      obtain ⟨e, he, rfl⟩ := List.mem_map.1 hes
      refine ⟨by simp, ?_⟩
      intro x hx
      simp only [List.mem_cons, List.not_mem_nil, or_false] at hx
      rcases hx with rfl | rfl
      · exact hnames b hb
      · exact ext_name (by decide) he
    · apply List.flatMap_congr
      intro r hr'
      by_cases hl : j.language = c!"cat"
      · rw [if_pos hl, if_pos hl]; rfl
      rw [if_neg hl, if_neg hl, List.map_flatMap]
      apply List.flatMap_congr
      intro b hb
      rw [caseFiles_eq (hran r hr').1 ((hran r hr').2 b hb), run_outputs hr, conv]
      intro es hes
      obtain ⟨e, he, rfl⟩ := List.mem_map.1 hes
      refine ⟨by simp, ?_⟩
      intro x hx
      rcases List.mem_append.1 hx with hx | hx
      · unfold dirOf at hx
        rcases (hran r hr').2 b hb with h | h
        · rw [if_pos h] at hx; simp at hx
        · rw [if_neg h.1.1, List.mem_singleton] at hx
          rw [hx]; exact h
      · rw [List.mem_singleton.1 hx]; exact ext_name (hran r hr').1 he
  · cases j.validator with
    | none => rfl
    | some lang =>
      simp only
      rw [List.map_flatMap]
      apply List.flatMap_congr
      intro c hc
      rw [validationFiles_eq, validator_outputs, conv]
      intro es hes
      obtain ⟨e, he, rfl⟩ := List.mem_map.1 hes
      refine ⟨by simp, ?_⟩
      intro x hx
      simp only [List.mem_cons, List.not_mem_nil, or_false] at hx
      rcases hx with rfl | rfl
      · exact name_validator
      · exact ext_name (hv c hc) he

/-- **C89.** What is in the archive that is sent back: the outputs of compiling, of the programs that ran and of the
validations, those of them that exist, each as it is in the end under its path from the directory of the run; and no
other file. -/
theorem C89_archive (j : Job) (bs : List Binary) (hr : j.root ≠ [])
    (hnames : ∀ b ∈ bs, Name b.name)
    (ran : List (Str × List Binary))
    (hran : ∀ r ∈ ran, '/' ∉ r.1 ∧ ∀ b ∈ r.2, b.outputPathPrefix = [] ∨ Name b.outputPathPrefix)
    (validated : List Str) (hv : ∀ c ∈ validated, '/' ∉ c) (contents : Str → Option Str) :
    (∀ m ∈ zipMembers j.root contents (generatedFiles j bs ran validated),
      join [j.root, m.1] ∈ writtenFiles j bs ran validated ∧ contents (join [j.root, m.1]) = some m.2) ∧
    (∀ p ∈ writtenFiles j bs ran validated, ∀ x, contents p = some x →
      ∃ f, join [j.root, f] = p ∧ (f, x) ∈ zipMembers j.root contents (generatedFiles j bs ran validated)) := by
  have hgw := generated_written hr hnames hran hv
  constructor
  · rintro ⟨f, x⟩ hm
    obtain ⟨h1, h2⟩ := (zipMembers_mem _ _ _ _ _).1 hm
    refine ⟨?_, h2⟩
    rw [← hgw]
    exact List.mem_map.2 ⟨f, h1, rfl⟩
  · intro p hp x hx
    rw [← hgw] at hp
    obtain ⟨f, hf, rfl⟩ := List.mem_map.1 hp
    exact ⟨f, rfl, (zipMembers_mem _ _ _ _ _).2 ⟨hf, hx⟩⟩

theorem zipMembers_names (root : Str) (contents : Str → Option Str) (files : List Str) :
    ((zipMembers root contents files).map Prod.fst).Sublist files := by
  induction files with
  | nil => exact List.Sublist.refl _
  | cons f files ih =>
    rw [zipMembers]
    cases contents (join [root, f]) with
    | none => exact ih.cons _
    | some c => simpa using ih.cons_cons f

theorem writtenFiles_perm {j : Job} (hl : j.language ≠ c!"cat") {bs : List Binary} {ran : List (Str × List Binary)}
    (hran : ran.map Prod.fst = j.cases) (hperm : ∀ r ∈ ran, r.2.Perm (bs.filter fun b => b.type ≠ .validator)) :
    (writtenFiles j bs ran j.cases).Perm (outputs j bs) := by
  unfold writtenFiles outputs
  apply List.Perm.append_right
  apply List.Perm.append_left
  unfold runCalls
  simp only [if_neg hl]
  rw [← hran, List.flatMap_assoc, List.flatMap_map]
  clear hran
  induction ran with
  | nil => exact List.Perm.refl _
  | cons r ran ih =>
    rw [List.flatMap_cons, List.flatMap_cons]
    apply List.Perm.append _ (ih fun r hr => hperm r (by simp [hr]))
    rw [List.flatMap_map]
    exact (hperm r (by simp)).flatMap_right _

/-- C89, the names: no two files in the archive have the same name, under the conditions of C88, when no case is
skipped and whatever the order in which the programs finish. -/
theorem C89_names_distinct_partial (j : Job) (bs : List Binary) (h : binaries j = .ok bs) (hr : j.root ≠ [])
    (hl : j.language ≠ c!"cat") (hnames : ∀ b ∈ bs, Name b.name)
    (hpre : ∀ b ∈ bs, b.outputPathPrefix = [] ∨ Name b.outputPathPrefix)
    (hkeys : ∀ ia, j.interactive = some ia → (ia.interfaces.map Prod.fst).Nodup)
    (hval : ∀ ia, j.interactive = some ia → j.validator ≠ none → c!"validator" ∉ ia.main :: ia.interfaces.map Prod.fst)
    (hcases : j.cases.Nodup) (hslash : ∀ c ∈ j.cases, '/' ∉ c) (hcompile : c!"compile" ∉ j.cases)
    (ran : List (Str × List Binary)) (hran : ran.map Prod.fst = j.cases)
    (hperm : ∀ r ∈ ran, r.2.Perm (bs.filter fun b => b.type ≠ .validator)) (contents : Str → Option Str) :
    ((zipMembers j.root contents (generatedFiles j bs ran j.cases)).map Prod.fst).Nodup := by
  have h1 := C88_outputs_distinct_partial j bs h hr hnames hkeys hval hcases hslash hcompile
  have h2 := (writtenFiles_perm hl hran hperm).nodup_iff.2 h1
  rw [← generated_written hr hnames (ran := ran) (fun r hr' => ⟨hslash _ (by rw [← hran]; exact List.mem_map.2 ⟨r, hr', rfl⟩),
    fun b hb => hpre b (List.mem_of_mem_filter ((hperm r hr').mem_iff.1 hb))⟩) hslash] at h2
  exact (zipMembers_names _ _ _).nodup h2.of_map

theorem count_flatMap_le {f : Str × List Binary → List Str} {g : Str → List Str} :
    ∀ (cases : List Str) (ran : List (Str × List Binary)), (ran.map Prod.fst).Sublist cases →
      (∀ r ∈ ran, ∀ a, (f r).count a ≤ (g r.1).count a) → ∀ a, (ran.flatMap f).count a ≤ (cases.flatMap g).count a
  | _, [], _, _, a => by simp
  | [], r :: ran, h, _, a => by simp at h
  | c :: cases, r :: ran, h, hf, a => by
    rw [List.flatMap_cons (xs := cases), List.count_append]
    rw [List.map_cons] at h
    cases h with
    | cons _ h =>
      have := count_flatMap_le cases (r :: ran) h hf a
      omega
    | cons_cons _ h =>
      have h1 := count_flatMap_le cases ran h (fun r hr => hf r (by simp [hr])) a
      have h2 := hf r (by simp) a
      rw [List.flatMap_cons, List.count_append]
      omega

/-- C89, the names, also when cases are skipped: if no two outputs of a job share a file (C88), no two files in the
archive have the same name, whichever of the cases are run (each once) and validated, and whatever the order in which the
programs finish. -/
theorem C89_names_distinct_skipping_partial (j : Job) (bs : List Binary) (hr : j.root ≠ []) (hl : j.language ≠ c!"cat")
    (hnames : ∀ b ∈ bs, Name b.name) (hpre : ∀ b ∈ bs, b.outputPathPrefix = [] ∨ Name b.outputPathPrefix)
    (hslash : ∀ c ∈ j.cases, '/' ∉ c) (h : (outputs j bs).Nodup)
    (ran : List (Str × List Binary)) (hran : (ran.map Prod.fst).Sublist j.cases)
    (hperm : ∀ r ∈ ran, r.2.Perm (bs.filter fun b => b.type ≠ .validator))
    (validated : List Str) (hv : validated.Sublist j.cases) (contents : Str → Option Str) :
    ((zipMembers j.root contents (generatedFiles j bs ran validated)).map Prod.fst).Nodup := by
  have hw : (writtenFiles j bs ran validated).Nodup := by
    rw [List.nodup_iff_count_le_one] at h ⊢
    intro a
    refine le_trans ?_ (h a)
    unfold writtenFiles outputs runCalls
    rw [List.count_append, List.count_append, List.count_append, List.count_append, List.flatMap_assoc]
    refine Nat.add_le_add (Nat.add_le_add (le_refl _) ?_) ?_
    · refine count_flatMap_le j.cases ran hran (fun r hr' b => ?_) a
      rw [if_neg hl, List.flatMap_map]
      exact le_of_eq (((hperm r hr').flatMap_right _).count_eq b)
    · cases j.validator with
      | none => exact le_refl _
      | some lang =>
        dsimp only
        have := count_flatMap_le (f := fun r => (validatorCall j lang r.1 true).outputs)
          (g := fun c => (validatorCall j lang c true).outputs) j.cases (validated.map fun c => (c, []))
          (by rw [List.map_map]; simpa [Function.comp_def] using hv) (fun r _ b => le_refl _) a
        rwa [List.flatMap_map] at this
  rw [← generated_written hr hnames (ran := ran) (fun r hr' =>
      ⟨hslash _ (hran.subset (List.mem_map.2 ⟨r, hr', rfl⟩)),
        fun b hb => hpre b (List.mem_of_mem_filter ((hperm r hr').mem_iff.1 hb))⟩)
    (fun c hc => hslash c (hv.subset hc))] at hw
  exact (zipMembers_names _ _ _).nodup hw.of_map

/-- C89, the names, of an output-only submission (runner/runner.go:814-877): the same, if no case of a problem with a
custom validator is called `compile`. -/
theorem C89_names_output_only (j : Job) (bs : List Binary) (h : binaries j = .ok bs) (hr : j.root ≠ [])
    (hl : j.language = c!"cat") (hi : j.interactive = none) (hcases : j.cases.Nodup) (hslash : ∀ c ∈ j.cases, '/' ∉ c)
    (hcompile : c!"compile" ∈ j.cases → j.validator = none)
    (ran : List (Str × List Binary)) (hran : (ran.map Prod.fst).Sublist j.cases)
    (hnone : ∀ r ∈ ran, r.2 = [])
    (validated : List Str) (hv : validated.Sublist j.cases) (contents : Str → Option Str) :
    ((zipMembers j.root contents (generatedFiles j bs ran validated)).map Prod.fst).Nodup := by
  let j' : Job := { j with language := c!"c" }
  have hb' : binaries j' = .ok (mainBinary j' :: match j.validator with
      | some lang => [validatorBinary j' lang]
      | none => []) := by
    unfold binaries regularBinaries
    rw [show j'.interactive = none from hi]
    rfl
  have hbs : bs = match j.validator with
      | some lang => [validatorBinary j lang]
      | none => [] := by
    unfold binaries regularBinaries at h
    rw [hi] at h
    dsimp only at h
    rw [if_pos hl] at h
    simp only [Prepared.ok.injEq, List.nil_append] at h
    exact h.symm
  have hnames' : ∀ b ∈ (mainBinary j' :: match j.validator with
      | some lang => [validatorBinary j' lang]
      | none => []), Name b.name := by
    intro b hb
    rcases List.mem_cons.1 hb with rfl | hb
    · show Name c!"Main"
      decide
    · cases hva : j.validator with
      | none => simp [hva] at hb
      | some lang =>
        simp only [hva, List.mem_singleton] at hb
        subst hb
        show Name c!"validator"
        decide
  have hno : ∀ ia, j'.interactive ≠ some ia := fun ia hia => by
    rw [show j'.interactive = none from hi] at hia
    cases hia
  have hout := (C88_exactly_partial j' _ hb' hr hnames' (fun ia hia => absurd hia (hno ia)) hcases hslash).2
    ⟨fun ia hia => absurd hia (hno ia), fun hc => ⟨hcompile hc, fun ia hia => absurd hia (hno ia)⟩⟩
  have hw : (writtenFiles j bs ran validated).Nodup := by
    rw [List.nodup_iff_count_le_one] at hout ⊢
    intro a
    refine le_trans ?_ (hout a)
    unfold writtenFiles outputs runCalls
    rw [List.count_append, List.count_append, List.count_append, List.count_append, List.flatMap_assoc]
    refine Nat.add_le_add (Nat.add_le_add ?_ ?_) ?_
    · rw [hbs, List.flatMap_cons, List.count_append]
      refine le_trans (le_of_eq ?_) (Nat.le_add_left _ _)
      cases j.validator <;> rfl
    · refine count_flatMap_le j.cases ran hran (fun r _ b => ?_) a
      rw [if_pos hl, List.filter_cons_of_pos (by simp [mainBinary]), List.map_cons, List.flatMap_cons, List.count_append]
      refine le_trans (le_of_eq ?_) (Nat.le_add_right _ _)
      congr 1
      simp only [RunCall.outputs, runCall, mainBinary]
      rw [show j'.root = j.root from rfl, join_skip hr, join_skip hr, join_skip hr]
    · show _ ≤ List.count a (match j.validator with
        | some lang => j.cases.flatMap fun c => (validatorCall j' lang c true).outputs
        | none => [])
      cases j.validator with
      | none => exact le_refl _
      | some lang =>
        dsimp only
        have := count_flatMap_le (f := fun r => (validatorCall j lang r.1 true).outputs)
          (g := fun c => (validatorCall j lang c true).outputs) j.cases (validated.map fun c => (c, []))
          (by rw [List.map_map]; simpa [Function.comp_def] using hv) (fun r _ b => le_refl _) a
        rwa [List.flatMap_map] at this
  have hnames : ∀ b ∈ bs, Name b.name := by
    intro b hb
    rw [hbs] at hb
    cases hva : j.validator with
    | none => simp [hva] at hb
    | some lang =>
      simp only [hva, List.mem_singleton] at hb
      subst hb
      show Name c!"validator"
      decide
  rw [← generated_written hr hnames (ran := ran) (fun r hr' =>
      ⟨hslash _ (hran.subset (List.mem_map.2 ⟨r, hr', rfl⟩)), fun b hb => by rw [hnone r hr'] at hb; cases hb⟩)
    (fun c hc => hslash c (hv.subset hc))] at hw
  exact (zipMembers_names _ _ _).nodup hw.of_map

end Quark.Sandbox
