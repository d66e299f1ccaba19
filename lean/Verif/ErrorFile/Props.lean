import Verif.ErrorFile.Model
import Verif.MetaFile.Props

/-!
# A Java program that runs out of memory (C144), and what a compiler says (C145)
-/

namespace Quark.ErrorFile

open MetaFile (parseMetaFile HasFields exitOf memOf Decision)

/-! ## Specification -/

/-- `l` stands at the beginning of a line of the file, and does not reach beyond the line. -/
def AtLineStart (file l : List Char) : Prop :=
  ∃ a b, file = a ++ l ++ b ∧ (a = [] ∨ a.getLast? = some '\n') ∧ '\n' ∉ l

/-- The text is within the first 4096 bytes of some line; or within the second, third, ... 4096 bytes of a line that
has no carriage return before them. -/
def Mentions (text file : List Char) : Prop :=
  ∃ p l k, AtLineStart file (p ++ l) ∧ p.length = 4096 * k ∧ '\r' ∉ p ∧ l.length ≤ 4096 ∧ text <:+: l

/-- The text of the Java virtual machine. -/
def oomText : List Char := "java.lang.OutOfMemoryError".toList

theorem pattern_eq : pattern = oomText := by decide +kernel

/-! ## Searching -/

theorem contains_iff (pat l : List Char) : contains pat l = true ↔ pat <:+: l := by
  induction l with
  | nil => simp [contains]
  | cons c cs ih => simp [contains, List.infix_cons_iff, ih]

theorem anyLine_eq (pat rest : List Char) : anyLine pat rest = match readLine rest with
    | none => false
    | some (l, after) => contains pat l || anyLine pat after := by
  rw [anyLine]
  split <;> simp_all

theorem infix_of_concat {pat y : List Char} {c : Char} (hc : c ∉ pat) (h : pat <:+: y ++ [c]) : pat <:+: y := by
  obtain ⟨a, b, h⟩ := h
  rcases List.eq_nil_or_concat b with rfl | ⟨b', d, rfl⟩
  · rw [List.append_nil] at h
    rcases List.eq_nil_or_concat pat with rfl | ⟨p', d, rfl⟩
    · exact List.nil_infix
    · exfalso
      rw [List.concat_eq_append, ← List.append_assoc] at h
      have := (List.append_inj' h rfl).2
      simp at this
      subst this
      simp at hc
  · rw [List.concat_eq_append, ← List.append_assoc] at h
    exact ⟨a, b', (List.append_inj' h rfl).1⟩

theorem infix_dropLast {pat x : List Char} {c : Char} (hc : c ∉ pat) (hl : x.getLast? = some c) (h : pat <:+: x) :
    pat <:+: x.dropLast := by
  have hx : x = x.dropLast ++ [c] := by
    obtain ⟨ys, hy⟩ := List.getLast?_eq_some_iff.mp hl
    rw [hy]; simp
  rw [hx] at h
  exact infix_of_concat hc h

theorem infix_dropCR {pat x : List Char} (hc : '\r' ∉ pat) (h : pat <:+: x) : pat <:+: dropCR x := by
  unfold dropCR
  split
  · rename_i hl; exact infix_dropLast hc hl h
  · exact h

theorem dropCR_prefix (x : List Char) : dropCR x <+: x := by
  unfold dropCR
  split
  · exact List.dropLast_prefix x
  · exact List.prefix_refl x

theorem newline_not_mem_takeWhile (x : List Char) : '\n' ∉ x.takeWhile (· ≠ '\n') := by
  induction x with
  | nil => simp
  | cons c x ih =>
    rw [List.takeWhile_cons]
    split
    · rename_i hc
      simp only [List.mem_cons, not_or]
      exact ⟨fun e => by simp [← e] at hc, ih⟩
    · simp

theorem takeWhile_take_length (p : Char → Bool) (k : Nat) (x : List Char) :
    ((x.take k).takeWhile p).length ≤ (x.takeWhile p).length := by
  induction x generalizing k with
  | nil => simp
  | cons c x ih =>
    cases k with
    | zero => simp
    | succ k =>
      simp only [List.take_succ_cons, List.takeWhile_cons]
      split
      · simpa using ih k
      · simp

/-- What `readLine` gives is a piece of the file without an end of line; what comes after is the end of the file. -/
theorem readLine_sound {rest l after : List Char} (h : readLine rest = some (l, after)) :
    l <+: rest ∧ '\n' ∉ l ∧ after <:+ rest := by
  simp only [readLine] at h
  split at h
  · cases h
    refine ⟨(dropCR_prefix _).trans ((List.takeWhile_prefix _).trans (List.take_prefix _ _)), ?_, List.drop_suffix _ _⟩
    exact fun hm => newline_not_mem_takeWhile _ ((dropCR_prefix _).subset hm)
  · rename_i hn
    split at h
    · split at h
      · cases h
        exact ⟨(List.dropLast_prefix _).trans (List.take_prefix _ _), fun hm => hn ((List.dropLast_prefix _).subset hm),
          List.drop_suffix _ _⟩
      · cases h
        exact ⟨List.take_prefix _ _, hn, List.drop_suffix _ _⟩
    · rename_i hlt
      split at h
      · cases h
      · cases h
        rw [List.take_of_length_le (by omega)] at hn
        exact ⟨List.prefix_refl _, hn, List.nil_suffix⟩

theorem anyLine_sound (pat : List Char) : ∀ (n : Nat) (rest : List Char), rest.length ≤ n → anyLine pat rest = true →
    ∃ l, l <:+: rest ∧ '\n' ∉ l ∧ pat <:+: l := by
  intro n
  induction n with
  | zero =>
    intro rest hn h
    have : rest = [] := List.length_eq_zero_iff.mp (by omega)
    subst this
    rw [anyLine_eq] at h
    simp [readLine, bufSize] at h
  | succ n ih =>
    intro rest hn h
    rw [anyLine_eq] at h
    split at h
    · cases h
    · rename_i l after hr
      obtain ⟨h1, h2, h3⟩ := readLine_sound hr
      rcases Bool.or_eq_true_iff.mp h with h | h
      · exact ⟨l, h1.isInfix, h2, (contains_iff _ _).mp h⟩
      · obtain ⟨l', hl', hn', hp⟩ := ih after (by have := readLine_shorter hr; omega) h
        exact ⟨l', hl'.trans h3.isInfix, hn', hp⟩

theorem takeWhile_append_prefix (l x : List Char) (h : '\n' ∉ l) : l <+: (l ++ x).takeWhile (· ≠ '\n') := by
  induction l with
  | nil => exact List.nil_prefix
  | cons c l ih =>
    simp only [List.mem_cons, not_or] at h
    have hc : c ≠ '\n' := fun e => h.1 e.symm
    rw [List.cons_append, List.takeWhile_cons, if_pos (by simp [hc])]
    exact List.cons_prefix_cons.mpr ⟨rfl, ih h.2⟩

/-- A line before it is read, or a part of one. -/
theorem readLine_before (a' l : List Char) : ∃ x k, readLine ((a' ++ ['\n']) ++ l) = some (x, (a' ++ ['\n']).drop k ++ l) ∧
    k ≤ (a' ++ ['\n']).length ∧ 0 < k := by
  have hbuf : bufSize = 4096 := rfl
  have key : ∃ x k, readLine ((a' ++ ['\n']) ++ l) = some (x, ((a' ++ ['\n']) ++ l).drop k) ∧
      k ≤ (a' ++ ['\n']).length ∧ 0 < k := by
    simp only [readLine]
    split
    · rename_i hm
      refine ⟨_, _, rfl, ?_, by omega⟩
      have h1 : (((a' ++ ['\n'] ++ l).take bufSize).takeWhile (· ≠ '\n')).length ≤
          ((a' ++ ['\n'] ++ l).takeWhile (· ≠ '\n')).length := takeWhile_take_length _ _ _
      have h2 : ((a' ++ ['\n'] ++ l).takeWhile (· ≠ '\n')).length ≤ a'.length := by
        clear h1 hm
        induction a' with
        | nil => simp
        | cons c a' ih =>
          by_cases hc : c = '\n'
          · simp [hc]
          · simpa [List.takeWhile_cons, hc] using ih
      simp only [List.length_append, List.length_cons, List.length_nil]
      omega
    · rename_i hm
      have hbig : bufSize ≤ a'.length := by
        by_contra hc
        apply hm
        refine List.mem_take_iff_getElem.mpr ⟨a'.length, ?_, ?_⟩
        · simp only [List.length_append, List.length_cons, List.length_nil]; omega
        · simp [List.append_assoc]
      have hlong : bufSize ≤ (a' ++ ['\n'] ++ l).length := by
        simp only [List.length_append, List.length_cons, List.length_nil]; omega
      rw [if_pos hlong]
      split
      · exact ⟨_, _, rfl, by simp only [List.length_append, List.length_cons, List.length_nil]; omega, by omega⟩
      · exact ⟨_, _, rfl, by simp only [List.length_append, List.length_cons, List.length_nil]; omega, by omega⟩
  obtain ⟨x, k, h, hk, h0⟩ := key
  exact ⟨x, k, by rw [h, List.drop_append_of_le_length hk], hk, h0⟩

/-- A full buffer. -/
theorem readLine_block (p l : List Char) (hp : p.length = 4096) (hn : '\n' ∉ p) (hr : '\r' ∉ p) :
    readLine (p ++ l) = some (p, l) := by
  have ht : (p ++ l).take bufSize = p := by rw [show bufSize = p.length from hp.symm, List.take_left]
  simp only [readLine, ht]
  rw [if_neg hn, if_pos (by simp only [List.length_append, bufSize]; omega), if_neg]
  · rw [show bufSize = p.length from hp.symm, List.drop_left]
  · intro h
    exact hr (List.mem_of_getLast? h)

/-- The rest of a line, up to the end of the buffer. -/
theorem readLine_here (pat l b : List Char) (hr : '\r' ∉ pat) (hl : '\n' ∉ l) (hlen : l.length ≤ 4096) (hp : pat <:+: l)
    (hne : pat ≠ []) : ∃ x y, readLine (l ++ b) = some (x, y) ∧ pat <:+: x := by
  have hbuf : bufSize = 4096 := rfl
  have hpre : l <+: (l ++ b).take bufSize := List.prefix_take_iff.mpr ⟨List.prefix_append _ _, by omega⟩
  simp only [readLine]
  split
  · refine ⟨_, _, rfl, infix_dropCR hr (hp.trans ?_)⟩
    obtain ⟨x, hx⟩ := hpre
    rw [← hx]
    exact (takeWhile_append_prefix l x hl).isInfix
  · split
    · split
      · rename_i hcr
        exact ⟨_, _, rfl, infix_dropLast hr hcr (hp.trans hpre.isInfix)⟩
      · exact ⟨_, _, rfl, hp.trans hpre.isInfix⟩
    · split
      · rename_i he
        have hl0 : l = [] := (List.append_eq_nil_iff.mp he).1
        rw [hl0, List.infix_nil] at hp
        exact absurd hp hne
      · exact ⟨_, _, rfl, hp.trans (List.prefix_append _ _).isInfix⟩

theorem anyLine_block (pat : List Char) (hr : '\r' ∉ pat) (l b : List Char) (hl : '\n' ∉ l) (hlen : l.length ≤ 4096)
    (hp : pat <:+: l) (hne : pat ≠ []) : ∀ (k : Nat) (p : List Char), p.length = 4096 * k → '\n' ∉ p → '\r' ∉ p →
    anyLine pat (p ++ (l ++ b)) = true := by
  intro k
  induction k with
  | zero =>
    intro p hk _ _
    have : p = [] := List.length_eq_zero_iff.mp (by omega)
    subst this
    obtain ⟨x, y, hxy, hx⟩ := readLine_here pat l b hr hl hlen hp hne
    rw [List.nil_append, anyLine_eq, hxy]
    simp [(contains_iff _ _).mpr hx]
  | succ k ih =>
    intro p hk hn hc
    rw [← List.take_append_drop 4096 p, List.append_assoc, anyLine_eq,
      readLine_block (p.take 4096) _ (by rw [List.length_take]; omega) (fun h => hn (List.mem_of_mem_take h))
        (fun h => hc (List.mem_of_mem_take h))]
    simp only
    rw [ih (p.drop 4096) (by rw [List.length_drop]; omega) (fun h => hn (List.mem_of_mem_drop h))
      (fun h => hc (List.mem_of_mem_drop h))]
    simp

theorem anyLine_found (pat : List Char) (x : List Char) (hx : anyLine pat x = true) : ∀ (n : Nat) (a : List Char),
    a.length ≤ n → (a = [] ∨ a.getLast? = some '\n') → anyLine pat (a ++ x) = true := by
  intro n
  induction n with
  | zero =>
    intro a hn _
    have : a = [] := List.length_eq_zero_iff.mp (by omega)
    subst this
    exact hx
  | succ n ih =>
    intro a hn ha
    rcases ha with rfl | ha
    · exact hx
    · obtain ⟨a', rfl⟩ := List.getLast?_eq_some_iff.mp ha
      obtain ⟨y, k, hyk, hk, hk0⟩ := readLine_before a' x
      rw [anyLine_eq, hyk]
      simp only
      rw [ih ((a' ++ ['\n']).drop k) ?_ ?_]
      · simp
      · rw [List.length_drop]; omega
      · rw [List.getLast?_drop]
        split
        · rename_i h; exact .inl (List.drop_eq_nil_of_le h)
        · right; simp

/-! ## C144 -/

theorem pattern_clean : '\r' ∉ pattern ∧ '\n' ∉ pattern ∧ pattern ≠ [] := by decide

theorem isJavaMLE_of_mentions {file : List Char} (h : Mentions oomText file) : isJavaMLE (some file) = true := by
  obtain ⟨p, l, k, ⟨a, b, rfl, ha, hn⟩, hk, hc, hlen, hp⟩ := h
  rw [← pattern_eq] at hp
  simp only [List.mem_append, not_or] at hn
  rw [List.append_assoc, List.append_assoc]
  exact anyLine_found pattern _ (anyLine_block pattern pattern_clean.1 l b hn.2 hlen hp pattern_clean.2.2 k p hk hn.1 hc)
    _ a (Nat.le_refl _) ha

theorem mentions_append {text file : List Char} (h : Mentions text file) (x : List Char) : Mentions text (file ++ x) := by
  obtain ⟨p, l, k, ⟨a, b, rfl, ha, hn⟩, h⟩ := h
  exact ⟨p, l, k, ⟨a, b ++ x, by simp, ha, hn⟩, h⟩

theorem parse_java_oom (lim : Int) (hp : 0 < lim) (file : List Char) (allow : Bool) (fields)
    (hf : HasFields file fields) (hexit : exitOf fields ≠ 0) :
    ∃ r, parseMetaFile (some lim) "java" file true allow = (r, false) ∧ r.verdict = .MLE ∧ r.memory = lim := by
  obtain ⟨ls, hl, hlen, hff⟩ := hf
  have hs := MetaFile.scan_fields {} ls fields hlen hff
  obtain ⟨he, hm, hg⟩ := MetaFile.fold_fields fields
  generalize fields.foldl (fun m f => MetaFile.applyField m f.1 f.2) {} = m at *
  unfold parseMetaFile
  rw [MetaFile.splitLines_of_hasLines hl, hs]
  simp only [Bool.false_eq_true, if_false]
  rw [if_pos ⟨hp, .inr ⟨trivial, by rw [he]; exact hexit, trivial⟩⟩]
  exact ⟨_, rfl, rfl, rfl⟩

/-- C144: a Java program that ends with an exit status other than zero and whose standard error has the text of the
virtual machine within one of the 4096-byte blocks of a line (see `Mentions`) gets MLE, with the limit as its memory; whatever else is in the
file, and whatever the sandbox adds. Missing from the full statement: a text across the end of a block. -/
theorem C144_out_of_memory_partial (limit : Int) (hpos : 0 < limit) (j : Jail) (m e : List Char)
    (fields : List (List Char × List Char)) (hm : j.metaFile = some m) (hf : HasFields m fields)
    (hexit : exitOf fields ≠ 0) (he : j.err = some e) (hoom : Mentions oomText e) :
    ∃ r, run limit "java" j = some (r, false) ∧ r.verdict = .MLE ∧ r.memory = limit := by
  have hj : isJavaMLE (invokeOmegajail j) = true := by
    unfold invokeOmegajail appendFile
    rw [he]
    split
    · exact isJavaMLE_of_mentions hoom
    · split
      · exact isJavaMLE_of_mentions hoom
      · rw [List.append_assoc]
        exact isJavaMLE_of_mentions (mentions_append hoom _)
  obtain ⟨r, hr, h1, h2⟩ := parse_java_oom limit hpos m ("java" == "c") fields hf hexit
  exact ⟨r, by simp only [run, hm, Option.map_some, hj, hr], h1, h2⟩

theorem infix_split {l x y : List Char} (hn : '\n' ∉ l) (h : l <:+: x ++ '\n' :: y) : l <:+: x ∨ l <:+: y := by
  obtain ⟨a, b, h⟩ := h
  rcases List.append_eq_append_iff.mp h with ⟨c, hx, -⟩ | ⟨c, hc, hy⟩
  · exact .inl ⟨a, c, hx.symm⟩
  · cases c with
    | nil => rw [List.append_nil] at hc; exact .inl ⟨a, [], by rw [List.append_nil, hc]⟩
    | cons d c =>
      rw [List.cons_append, List.cons.injEq] at hy
      obtain ⟨rfl, rfl⟩ := hy
      rcases List.append_eq_append_iff.mp hc with ⟨d, -, hl⟩ | ⟨d, -, hl⟩
      · exfalso; apply hn; rw [hl]; simp
      · cases d with
        | nil => exfalso; apply hn; rw [List.nil_append] at hl; rw [← hl]; simp
        | cons d' d =>
          rw [List.cons_append, List.cons.injEq] at hl
          obtain ⟨rfl, rfl⟩ := hl
          exact .inr ⟨d, b, rfl⟩

/-- C144: a Java program that used no more than its limit gets MLE only if it failed and its own standard error has
the text of the virtual machine, or the sandbox's: a text that begins in the one and ends in the other does not count. -/
theorem C144_only_if (limit : Int) (j : Jail) (m : List Char) (fields : List (List Char × List Char))
    (hm : j.metaFile = some m) (hf : HasFields m fields) (r : MetaFile.Meta) (err : Bool)
    (hr : run limit "java" j = some (r, err)) (hv : r.verdict = .MLE) :
    0 < limit ∧ (limit < memOf fields ∨
      exitOf fields ≠ 0 ∧ (oomText <:+: j.err.getD [] ∨ oomText <:+: j.said.getD [])) := by
  simp only [run, hm, Option.map_some, Option.some.injEq] at hr
  have hd := (MetaFile.parse_decision (some limit) "java" m (isJavaMLE (invokeOmegajail j)) ("java" == "c") fields hf).2
  rw [hr] at hd
  simp only [hv] at hd
  generalize hV : MetaFile.Verdict.MLE = v at hd
  cases hd with
  | mle lim hl hpos h =>
    cases hl
    refine ⟨hpos, ?_⟩
    rcases h with h | ⟨-, h1, h2⟩
    · exact .inl h
    · refine .inr ⟨h1, ?_⟩
      unfold invokeOmegajail appendFile at h2
      rw [← pattern_eq]
      have plain : ∀ f : Option (List Char), isJavaMLE f = true → pattern <:+: f.getD [] := by
        intro f hf
        cases f with
        | none => cases hf
        | some f =>
          obtain ⟨l, h1, -, h3⟩ := anyLine_sound pattern _ f (Nat.le_refl _) hf
          exact h3.trans h1
      split at h2
      · exact .inl (plain _ h2)
      · rename_i s hs
        split at h2
        · exact .inl (plain _ h2)
        · obtain ⟨l, h1, h2, h3⟩ := anyLine_sound pattern _ _ (Nat.le_refl _) h2
          rw [List.append_assoc, List.singleton_append] at h1
          rcases infix_split h2 h1 with h | h
          · exact .inl (h3.trans h)
          · right; rw [hs]; exact h3.trans h
  | signal s => unfold MetaFile.signalVerdict at hV; repeat' split at hV
                all_goals cases hV
  | _ => cases hV

/-- C144: in every other language what is in the error file does not matter. -/
theorem C144_other_languages (limit : Int) (lang : String) (hl : lang ≠ "java") (j j' : Jail)
    (hm : j.metaFile = j'.metaFile) : run limit lang j = run limit lang j' := by
  simp only [run, hm]
  congr 1
  funext m
  have : ∀ a b, parseMetaFile (some limit) lang m a (lang == "c") = parseMetaFile (some limit) lang m b (lang == "c") := by
    intro a b
    unfold parseMetaFile
    simp [hl]
  exact this _ _

/-- A meta file: exit status 1, 1000 bytes of memory. -/
def failed : List Char := ['s','t','a','t','u','s',':','1','\n','m','e','m',':','1','0','0','0','\n']

/-- What the virtual machine says, in the line of a thread with a name of `k` characters. -/
def trace (k : Nat) : List Char :=
  "Exception in thread main".toList ++ List.replicate k 'x' ++ oomText ++ ": Java heap space\n\tat Main.main\n".toList

/-- C144 is false of the code for long lines: the text is there, in the one line the virtual machine writes, and the
verdict is RTE. -/
theorem C144_false_long_line :
    oomText <:+: trace 4060 ∧
      (run 1000000 "java" ⟨some [], some (trace 4060), some failed, some []⟩).map (fun r => r.1.verdict) = some .RTE := by
  constructor
  · exact ⟨"Exception in thread main".toList ++ List.replicate 4060 'x', ": Java heap space\n\tat Main.main\n".toList, rfl⟩
  · decide +kernel

/-- A program that uses no memory to speak of gets MLE if it writes the text and fails: the verdict does not tell
whether memory ran out. -/
theorem C144_forged :
    (run 1000000 "java" ⟨some [], some (oomText ++ ['\n']), some failed, some []⟩).map
      (fun r => (r.1.verdict, r.1.memory)) = some (.MLE, 1000000) := by decide +kernel

/-- The hypotheses of C144 on a real trace, of two lines. -/
example : ∃ fields, HasFields failed fields ∧ exitOf fields ≠ 0 ∧
    Mentions oomText (['h', 'i', '\n'] ++ trace 3) := by
  refine ⟨[(['s','t','a','t','u','s'], ['1']), (['m','e','m'], ['1','0','0','0'])], ?_, ?_, ?_⟩
  · refine ⟨[['s','t','a','t','u','s',':','1'], ['m','e','m',':','1','0','0','0']], ?_, by decide, ?_⟩
    · exact .line ['s','t','a','t','u','s',':','1'] ['m','e','m',':','1','0','0','0','\n'] _ (by decide)
        (.line ['m','e','m',':','1','0','0','0'] [] _ (by decide) .nil)
    · exact .cons ⟨by decide, .inl ⟨by decide, by decide⟩⟩ (.cons ⟨by decide, .inl ⟨by decide, by decide⟩⟩ .nil)
  · decide
  · refine ⟨[], "Exception in thread mainxxx".toList ++ oomText, 0, ⟨['h', 'i', '\n'], ": Java heap space\n\tat Main.main\n".toList, ?_, ?_, ?_⟩,
      rfl, by simp, ?_, ?_⟩
    · decide +kernel
    · right; rfl
    · decide +kernel
    · decide +kernel
    · exact ⟨_, [], by rw [List.append_nil]⟩

/-! ## C145 -/

/-- C145: a user is shown a compile error exactly if the program was not compiled: the sandbox left no meta file or
one that cannot be read, or the compiler failed, or a Java program has no class of the right name. -/
theorem C145_shown_iff (name : List Char) (lang : String) (target missing : List Char) (found : Bool) (j : Jail) :
    compileError name lang missing (compile lang target found j) = none ↔
      ∃ m, j.metaFile = some m ∧ (parseMetaFile none lang m false false).2 = false ∧
        (parseMetaFile none lang m false false).1.verdict = .OK ∧ (lang = "java" → found = true) := by
  unfold compile
  cases hm : j.metaFile with
  | none => simp [compileError, compileError.shown]
  | some m =>
    simp only [Option.some.injEq, exists_eq_left']
    split
    · rename_i h
      have hf : found = false := by simpa using h.2.2
      rcases parseMetaFile none lang m false false with ⟨a, b⟩
      cases b <;> simp [compileError, compileError.shown, h.1, hf]
    · rename_i h
      rcases hp : parseMetaFile none lang m false false with ⟨a, b⟩
      rw [hp] at h
      cases b with
      | true => simp [compileError, compileError.shown]
      | false =>
        by_cases hv : a.verdict = .OK
        · have : lang = "java" → found = true := by
            intro hl
            by_contra hn
            exact h ⟨hl, hv, by simpa using hn⟩
          simpa [compileError, hv] using this
        · simp [compileError, compileError.shown, hv]

/-- What the compiler and the sandbox left, and what is added for a Java program without its class. -/
structure Said where
  compiler : List Char
  sandbox : List Char
  noClass : Bool

/-- The text to be shown, for all languages but two. -/
def Said.text (s : Said) (target : List Char) : List Char :=
  s.compiler ++ (if s.sandbox = [] then [] else '\n' :: s.sandbox) ++
    (if s.noClass then '\n' :: ("Class `".toList ++ target ++ "` not found. Make sure your class is named `".toList ++ target ++
      "` and outside all packages".toList) else [])

/-- C145: what is shown is the name of the program, and then all that the compiler wrote to its standard error,
followed by what the sandbox said, and by the hint about the class if that is all that is missing. -/
theorem C145_text (name : List Char) (lang : String) (target missing : List Char) (found : Bool) (j : Jail)
    (hl : lang ≠ "pas" ∧ lang ≠ "cs") (e said msg : List Char) (he : j.err = some e) (hs : j.said = some said)
    (h : compileError name lang missing (compile lang target found j) = some msg) :
    ∃ noClass, msg = name ++ [':', '\n'] ++ Said.text ⟨e, said, noClass⟩ target ∧
      (noClass = true ↔ lang = "java" ∧ found = false ∧
        ∃ m, j.metaFile = some m ∧ (parseMetaFile none lang m false false).1.verdict = .OK) := by
  have hinv : invokeOmegajail j = some (e ++ if said = [] then [] else '\n' :: said) := by
    unfold invokeOmegajail appendFile
    rw [he, hs]
    cases said <;> simp
  have key : ∀ (c : Compiled) (x : List Char), c.err = some x → compileError name lang missing c = some msg →
      msg = name ++ [':', '\n'] ++ x := by
    intro c x hx hc
    unfold compileError at hc
    have hsh : compileError.shown name lang missing c = some (name ++ [':', '\n'] ++ x) := by
      unfold compileError.shown getCompileError
      rw [if_neg (by rintro (h | h); exacts [hl.1 h, hl.2 h]), hx]; rfl
    split at hc
    · split at hc
      · cases hc
      · rw [hsh] at hc; cases hc; rfl
    · rw [hsh] at hc; cases hc; rfl
  unfold compile at h
  cases hm : j.metaFile with
  | none =>
    rw [hm] at h
    refine ⟨false, ?_, by simp⟩
    have := key _ _ hinv h
    simpa [Said.text] using this
  | some m =>
    rw [hm] at h
    simp only at h
    split at h
    · rename_i hj
      refine ⟨true, ?_, fun _ => ⟨hj.1, by simpa using hj.2.2, m, rfl, hj.2.1⟩, fun _ => rfl⟩
      rw [key _ _ rfl h, hinv]
      unfold Said.text classNotFound
      rw [if_pos rfl]
      generalize "Class `".toList = a
      generalize "` not found. Make sure your class is named `".toList = b
      generalize "` and outside all packages".toList = c
      simp only [Option.getD_some, List.append_assoc, List.cons_append, List.nil_append]
    · rename_i hj
      refine ⟨false, ?_, ?_⟩
      · have := key _ _ hinv h
        simpa [Said.text] using this
      · simp only [Bool.false_eq_true, false_iff]
        rintro ⟨h1, h2, m', h3, h4⟩
        cases h3
        exact hj ⟨h1, h4, by simp [h2]⟩

/-- C145: for Pascal and C# it is what the compiler wrote to its standard output, and nothing else. -/
theorem C145_pascal_csharp (name : List Char) (lang : String) (target missing : List Char) (found : Bool) (j : Jail)
    (hl : lang = "pas" ∨ lang = "cs") (o msg : List Char) (ho : j.out = some o)
    (h : compileError name lang missing (compile lang target found j) = some msg) :
    msg = name ++ [':', '\n'] ++ o := by
  have hout : (compile lang target found j).out = some o := by
    unfold compile
    cases j.metaFile with
    | none => exact ho
    | some m => simp only; split <;> exact ho
  generalize compile lang target found j = c at h hout
  have hsh : compileError.shown name lang missing c = some (name ++ [':', '\n'] ++ o) := by
    unfold compileError.shown getCompileError
    rw [if_pos hl, hout]; rfl
  unfold compileError at h
  split at h
  · split at h
    · cases h
    · rw [hsh] at h; cases h; rfl
  · rw [hsh] at h; cases h; rfl

/-- So for these two what the sandbox says is not shown: here the user sees nothing after the name. -/
example : compileError ['M'] "pas" [] (compile "pas" ['M'] false
    ⟨some [], some [], none, some ['o', 'o', 'm']⟩) = some ['M', ':', '\n'] := by decide +kernel

/-- A compiler and the sandbox both have something to say. -/
example : compileError ['M'] "cpp" [] (compile "cpp" ['M'] false
    ⟨some [], some ['e'], some failed, some ['s']⟩) = some ['M', ':', '\n', 'e', '\n', 's'] := by decide +kernel

/-- A Java program with a class of another name. -/
example : (compileError ['M'] "java" [] (compile "java" ['M'] false
    ⟨some [], some ['w'], some ['s','t','a','t','u','s',':','0','\n'], some []⟩)).isSome = true := by decide +kernel

end Quark.ErrorFile
