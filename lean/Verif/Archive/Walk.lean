import Verif.Archive.Model
import Verif.Files.Props
import Mathlib.Tactic.SplitIfs

/-!
# The walk of a repository's tree

What the members of an archive are, in terms of the tree.
-/

namespace Quark.Archive

/-! ### Specification -/

def Node.name : Node → Bytes
  | .tree n _ _ => n
  | .blob n _ _ => n
  | .other n => n

/-- What a tree of a repository holds at a path: the contents of a blob, a directory, or nothing. -/
def contents : List Node → List Bytes → Option Ent
  | _, [] => some .dir
  | ns, n :: p =>
    match ns.find? (fun x => x.name == n) with
    | some (.tree _ _ cs) => contents cs p
    | some (.blob _ _ c) => if p = [] then some (.file c) else none
    | _ => none

mutual
/-- The trees that git makes: names are file names and no two entries of a tree share one. -/
def Node.Valid : Node → Prop
  | .tree n _ cs => Path.Name n ∧ Valid cs
  | .blob n _ _ => Path.Name n
  | .other n => Path.Name n
def Valid : List Node → Prop
  | [] => True
  | n :: ns => n.Valid ∧ (∀ m ∈ ns, m.name ≠ n.name) ∧ Valid ns
end

mutual
/-- All subtrees can be read. -/
def Node.Intact : Node → Prop
  | .tree _ r cs => r = true ∧ Intact cs
  | .blob _ _ _ => True
  | .other _ => True
def Intact : List Node → Prop
  | [] => True
  | n :: ns => n.Intact ∧ Intact ns
end

mutual
/-- All blobs can be read. -/
def Node.Blobs : Node → Prop
  | .tree _ _ cs => Blobs cs
  | .blob _ r _ => r = true
  | .other _ => True
def Blobs : List Node → Prop
  | [] => True
  | n :: ns => n.Blobs ∧ Blobs ns
end

mutual
/-- The number of bytes in all blobs. -/
def Node.total : Node → Nat
  | .tree _ _ cs => total cs
  | .blob _ _ c => c.length
  | .other _ => 0
def total : List Node → Nat
  | [] => 0
  | n :: ns => n.total + total ns
end

mutual
/-- What is left of a tree when everything from the contents of the first unreadable subtree on is dropped, and
whether that is all of it. -/
def Node.cut : Node → Node × Bool
  | .tree n r cs => if r then (.tree n true (cut cs).1, (cut cs).2) else (.tree n true [], false)
  | .blob n r c => (.blob n r c, true)
  | .other n => (.other n, true)
def cut : List Node → List Node × Bool
  | [] => ([], true)
  | n :: ns => if n.cut.2 then (n.cut.1 :: (cut ns).1, (cut ns).2) else ([n.cut.1], false)
end

/-! ### The members -/

mutual
def Node.emit (pre : List Bytes) : Node → List Member
  | .tree n _ cs => .dir (Path.slashed (pre ++ [n])) :: emit (pre ++ [n]) cs
  | .blob n _ c => [.file (Path.slashed (pre ++ [n])) c]
  | .other _ => []
def emit (pre : List Bytes) : List Node → List Member
  | [] => []
  | n :: ns => n.emit pre ++ emit pre ns
end

/-- The text of a tree's path that libgit2 gives to the callback. -/
def text (pre : List Bytes) : Bytes := pre.flatMap fun n => n ++ ['/']

theorem text_snoc (pre : List Bytes) (n : Bytes) : text (pre ++ [n]) = text pre ++ n ++ ['/'] := by
  simp [text]

theorem text_append_slashed (pre : List Bytes) (n : Bytes) : text pre ++ n = Path.slashed (pre ++ [n]) := by
  induction pre with
  | nil => simp [text, Path.slashed]
  | cons p pre ih =>
    have : text (p :: pre) = p ++ '/' :: text pre := by simp [text]
    rw [this, List.append_assoc, List.cons_append, ih]
    cases pre <;> simp [Path.slashed]

theorem acc_of_names {r : Bool} {es : List Bytes} (h : ∀ e ∈ es, Path.Name e) : Path.Acc r es where
  elem := fun e he => (h e he).1
  dots := fun e t ht he => absurd he (h e (ht.mem (by simp))).2
  root := fun _ hd => (h _ hd).2 rfl

theorem clean_of_names {r : Bool} {es : List Bytes} (h : ∀ e ∈ es, Path.Name e) : Path.Clean r es := by
  unfold Path.Clean
  exact acc_of_names (fun e he => h e (List.mem_reverse.1 he))

theorem text_ne_nil {pre : List Bytes} (h : pre ≠ []) : text pre ≠ [] := by
  cases pre with
  | nil => exact absurd rfl h
  | cons p pre => simp [text]

/-- The path of an entry. -/
theorem join_text {pre : List Bytes} {n : Bytes} (hp : ∀ e ∈ pre, Path.Name e) (hn : Path.Name n) :
    Path.join [text pre, n] = Path.slashed (pre ++ [n]) := by
  have hall : ∀ e ∈ pre ++ [n], Path.Name e := by
    intro e he
    rcases List.mem_append.1 he with h | h
    · exact hp e h
    · rw [List.mem_singleton.1 h]; exact hn
  have hcl : Path.Clean false (pre ++ [n]) := clean_of_names hall
  have hren : Path.render false (pre ++ [n]) = Path.slashed (pre ++ [n]) := by simp [Path.render]
  have hclean : Path.clean (Path.slashed (pre ++ [n])) = Path.slashed (pre ++ [n]) := by
    have h1 := Path.names_render hcl
    have h2 := Path.rooted_render hcl
    rw [hren] at h1 h2
    unfold Path.clean
    rw [h1, h2, hren]
  by_cases hpre : pre = []
  · subst hpre
    have hn0 : n ≠ [] := hn.1.1
    have : Path.join [text [], n] = Path.clean (Path.slashed [n]) := by
      simp [Path.join, text, hn0]
    rw [this, List.nil_append] at *
    exact hclean
  · rw [Path.join_cons (text_ne_nil hpre), ← hclean]
    apply Path.clean_eq_iff.2
    have hs : Path.slashed [text pre, n] = text pre ++ '/' :: n := by simp [Path.slashed]
    rw [hs, ← text_append_slashed]
    have hr : Path.rooted (text pre ++ '/' :: n) = Path.rooted (text pre ++ n) := by
      have := text_ne_nil hpre
      cases ht : text pre with
      | nil => exact absurd ht this
      | cons c t => simp [Path.rooted]
    refine ⟨hr, ?_⟩
    unfold Path.names
    rw [hr]
    obtain ⟨pre', l, rfl⟩ : ∃ pre' l, pre = pre' ++ [l] := ⟨_, _, (List.dropLast_append_getLast hpre).symm⟩
    have e1 : text (pre' ++ [l]) ++ '/' :: n = (text pre' ++ l) ++ '/' :: ('/' :: n) := by
      rw [text_snoc]; simp
    have e2 : text (pre' ++ [l]) ++ n = (text pre' ++ l) ++ '/' :: n := by
      rw [text_snoc]; simp
    rw [e1, e2, Path.elems_append_slash, Path.elems_append_slash]
    have : Path.elems ('/' :: n) = [] :: Path.elems n := by simp [Path.elems]
    rw [this, List.foldl_append, List.foldl_append, List.foldl_cons]
    simp [Path.push]

theorem slashed_inj {a b : List Bytes} (ha : a ≠ []) (hb : b ≠ []) (ha' : ∀ e ∈ a, '/' ∉ e) (hb' : ∀ e ∈ b, '/' ∉ e)
    (h : Path.slashed a = Path.slashed b) : a = b := by
  rw [← Path.elems_slashed ha ha', h, Path.elems_slashed hb hb']

theorem name_settings : Path.Name settingsName := by decide +kernel

/-- Only the root's own entry has the path `settings.json`. -/
theorem slashed_settings {pre : List Bytes} {n : Bytes} (hp : ∀ e ∈ pre, Path.Name e) (hn : Path.Name n) :
    (Path.slashed (pre ++ [n]) == settingsName) = (pre.isEmpty && n == settingsName) := by
  have hall : ∀ e ∈ pre ++ [n], '/' ∉ e := by
    intro e he
    rcases List.mem_append.1 he with h | h
    · exact (hp e h).1.2.2
    · rw [List.mem_singleton.1 h]; exact hn.1.2.2
  have key : Path.slashed (pre ++ [n]) = settingsName ↔ pre = [] ∧ n = settingsName := by
    constructor
    · intro h
      have h' : Path.slashed (pre ++ [n]) = Path.slashed [settingsName] := by rw [h]; rfl
      have := slashed_inj (by simp) (by simp) hall
        (by intro e he; rw [List.mem_singleton.1 he]; exact name_settings.1.2.2) h'
      cases pre with
      | nil => simpa using this
      | cons p pre => simp at this
    · rintro ⟨rfl, rfl⟩; rfl
  rw [Bool.eq_iff_iff]
  simp only [beq_iff_eq, Bool.and_eq_true, List.isEmpty_iff]
  exact key

/-- What the walk did: for a walk of `ns` that started with `w` and did not end with an error. -/
structure Did (pre : List Bytes) (w w' : Walked) (ns : List Node) (whole : Bool) : Prop where
  out : w'.out = w.out ++ emit pre ns
  size : w'.size = w.size + total ns
  stop : w'.stop = if whole then none else some .silent
  found : w'.found = (w.found || (pre.isEmpty && ns.any (fun n => n.name == settingsName)))

theorem cut_name : ∀ n : Node, n.cut.1.name = n.name
  | .tree n r cs => by unfold Node.cut; split_ifs <;> rfl
  | .blob _ _ _ => rfl
  | .other _ => rfl

mutual

theorem visit_did (io : Bytes → Bool) (pre : List Bytes) (hp : ∀ e ∈ pre, Path.Name e) (w : Walked)
    (hw : w.stop = none) : ∀ n : Node, n.Valid → (visit io (text pre) w n).stop ≠ some .error →
    Did pre w (visit io (text pre) w n) [n.cut.1] n.cut.2
  | .tree n r cs, hv, hs => by
    obtain ⟨hn, hcs⟩ := hv
    have hj := join_text hp hn
    have hset := slashed_settings hp hn
    unfold visit at hs ⊢
    dsimp only at hs ⊢
    rw [hj] at hs ⊢
    by_cases hio : io (Path.slashed (pre ++ [n])) = true
    · have hio' : (!io (Path.slashed (pre ++ [n]))) ≠ true := by simp [hio]
      rw [if_neg hio'] at hs ⊢
      by_cases hr : r = true
      · subst hr
        simp only [Bool.not_true, Bool.false_eq_true, if_false] at hs ⊢
        rw [← text_snoc] at hs ⊢
        have hp' : ∀ e ∈ pre ++ [n], Path.Name e := by
          intro e he
          rcases List.mem_append.1 he with h | h
          · exact hp e h
          · rw [List.mem_singleton.1 h]; exact hn
        have ih := walk_did io (pre ++ [n]) hp'
          { w with found := w.found || Path.slashed (pre ++ [n]) == settingsName
                   out := w.out ++ [.dir (Path.slashed (pre ++ [n]))] } hw cs hcs hs
        have hc : (Node.tree n true cs).cut = (.tree n true (cut cs).1, (cut cs).2) := by
          simp [Node.cut]
        rw [hc]
        refine ⟨?_, ?_, ih.stop, ?_⟩
        · rw [ih.out]; simp [emit, Node.emit]
        · rw [ih.size]; simp [total, Node.total]
        · rw [ih.found, hset]
          simp [Node.name]
      · have hr' : r = false := by simpa using hr
        subst hr'
        simp only [Bool.not_false, if_true]
        have hc : (Node.tree n false cs).cut = (.tree n true [], false) := by simp [Node.cut]
        rw [hc]
        refine ⟨?_, ?_, rfl, ?_⟩
        · simp [emit, Node.emit]
        · simp [total, Node.total]
        · show (w.found || Path.slashed (pre ++ [n]) == settingsName) = _
          rw [hset]; simp [Node.name]
    · have hio' : (!io (Path.slashed (pre ++ [n]))) = true := by simpa using hio
      rw [if_pos hio'] at hs
      exact absurd rfl hs
  | .blob n r c, hv, hs => by
    have hn : Path.Name n := hv
    have hj := join_text hp hn
    have hset := slashed_settings hp hn
    unfold visit at hs ⊢
    dsimp only at hs ⊢
    rw [hj] at hs ⊢
    by_cases hr : r = true
    · subst hr
      simp only [Bool.not_true, Bool.false_eq_true, if_false] at hs ⊢
      by_cases hio : io (Path.slashed (pre ++ [n])) = true
      · have hio' : (!io (Path.slashed (pre ++ [n]))) ≠ true := by simp [hio]
        rw [if_neg hio'] at hs ⊢
        refine ⟨?_, ?_, ?_, ?_⟩
        · simp [emit, Node.emit, Node.cut]
        · simp [total, Node.total, Node.cut]
        · simpa [Node.cut] using hw
        · show (w.found || Path.slashed (pre ++ [n]) == settingsName) = _
          rw [hset]; simp [Node.name, Node.cut]
      · have hio' : (!io (Path.slashed (pre ++ [n]))) = true := by simpa using hio
        rw [if_pos hio'] at hs
        exact absurd rfl hs
    · have hr' : r = false := by simpa using hr
      subst hr'
      simp at hs
  | .other n, hv, hs => by
    have hn : Path.Name n := hv
    have hj := join_text hp hn
    have hset := slashed_settings hp hn
    unfold visit at hs ⊢
    rw [hj] at hs ⊢
    refine ⟨?_, ?_, ?_, ?_⟩
    · simp [emit, Node.emit, Node.cut]
    · simp [total, Node.total, Node.cut]
    · simpa [Node.cut] using hw
    · show (w.found || Path.slashed (pre ++ [n]) == settingsName) = _
      rw [hset]; simp [Node.name, Node.cut]

theorem walk_did (io : Bytes → Bool) (pre : List Bytes) (hp : ∀ e ∈ pre, Path.Name e) (w : Walked)
    (hw : w.stop = none) : ∀ ns : List Node, Valid ns → (walk io (text pre) w ns).stop ≠ some .error →
    Did pre w (walk io (text pre) w ns) (cut ns).1 (cut ns).2
  | [], _, _ => by
    refine ⟨?_, ?_, ?_, ?_⟩ <;> simp [walk, emit, total, cut, hw]
  | n :: ns, hv, hs => by
    obtain ⟨hvn, _, hvs⟩ := hv
    unfold walk at hs ⊢
    dsimp only at hs ⊢
    have hne : (visit io (text pre) w n).stop ≠ some .error := by
      intro he
      rw [he] at hs
      simp only [Option.isSome_some, if_true] at hs
      exact hs he
    have h1 := visit_did io pre hp w hw n hvn hne
    by_cases hgo : n.cut.2 = true
    · have hstop : (visit io (text pre) w n).stop = none := by rw [h1.stop, hgo]; rfl
      have : ¬ (visit io (text pre) w n).stop.isSome = true := by rw [hstop]; simp
      rw [if_neg this] at hs ⊢
      have h2 := walk_did io pre hp _ hstop ns hvs hs
      have hc : cut (n :: ns) = (n.cut.1 :: (cut ns).1, (cut ns).2) := by rw [cut, if_pos hgo]
      rw [hc]
      refine ⟨?_, ?_, h2.stop, ?_⟩
      · rw [h2.out, h1.out]; simp [emit]
      · rw [h2.size, h1.size]; simp [total]; omega
      · rw [h2.found, h1.found]
        simp only [List.any_cons, List.any_nil, Bool.or_false]
        cases w.found <;> cases pre.isEmpty <;> simp
    · have hstop : (visit io (text pre) w n).stop = some .silent := by
        rw [h1.stop]; simp [hgo]
      rw [hstop]
      simp only [Option.isSome_some, if_true]
      have hc : cut (n :: ns) = ([n.cut.1], false) := by rw [cut, if_neg hgo]
      rw [hc]
      have hf : n.cut.2 = false := by simpa using hgo
      rw [hf] at h1
      exact h1

end

mutual
theorem cut_valid_node : ∀ n : Node, n.Valid → n.cut.1.Valid
  | .tree n r cs, h => by
    unfold Node.cut
    split_ifs with hr
    · exact ⟨h.1, cut_valid cs h.2⟩
    · exact ⟨h.1, trivial⟩
  | .blob _ _ _, h => h
  | .other _, h => h
theorem cut_valid : ∀ ns : List Node, Valid ns → Valid (cut ns).1
  | [], _ => trivial
  | n :: ns, h => by
    unfold cut
    split_ifs with hr
    · refine ⟨cut_valid_node n h.1, ?_, cut_valid ns h.2.2⟩
      intro m hm
      obtain ⟨m', hm', he⟩ := cut_mem ns m hm
      rw [he, cut_name]
      exact h.2.1 m' hm'
    · exact ⟨cut_valid_node n h.1, by simp, trivial⟩
theorem cut_mem : ∀ ns : List Node, ∀ m ∈ (cut ns).1, ∃ m' ∈ ns, m.name = m'.name
  | [], m, hm => by simp [cut] at hm
  | n :: ns, m, hm => by
    unfold cut at hm
    split_ifs at hm with hr
    · rcases List.mem_cons.1 hm with rfl | hm
      · exact ⟨n, by simp, cut_name n⟩
      · obtain ⟨m', h1, h2⟩ := cut_mem ns m hm
        exact ⟨m', by simp [h1], h2⟩
    · rw [List.mem_singleton.1 hm]
      exact ⟨n, by simp, cut_name n⟩
end

mutual
theorem cut_intact_node : ∀ n : Node, n.Intact → n.cut = (n, true)
  | .tree n r cs, h => by
    obtain ⟨hr, hcs⟩ := h
    subst hr
    unfold Node.cut
    rw [cut_intact cs hcs]; simp
  | .blob _ _ _, _ => rfl
  | .other _, _ => rfl
theorem cut_intact : ∀ ns : List Node, Intact ns → cut ns = (ns, true)
  | [], _ => rfl
  | n :: ns, h => by
    unfold cut
    rw [cut_intact_node n h.1, cut_intact ns h.2]; simp
end

mutual
/-- The walk goes through to the end if everything can be read and written. -/
theorem visit_none (io : Bytes → Bool) (hio : ∀ p, io p = true) (par : Bytes) : ∀ (n : Node) (w : Walked),
    w.stop = none → n.Intact → n.Blobs → (visit io par w n).stop = none
  | .tree n r cs, w, hw, hi, hb => by
    unfold visit
    have hr : r = true := hi.1
    simp only [hio, Bool.not_true, Bool.false_eq_true, if_false, hr]
    exact walk_none io hio _ cs _ hw hi.2 hb
  | .blob n r c, w, hw, _, hb => by
    have hr : r = true := hb
    unfold visit
    simp [hio, hr, hw]
  | .other n, w, hw, _, _ => by
    unfold visit
    exact hw
theorem walk_none (io : Bytes → Bool) (hio : ∀ p, io p = true) (par : Bytes) : ∀ (ns : List Node) (w : Walked),
    w.stop = none → Intact ns → Blobs ns → (walk io par w ns).stop = none
  | [], w, hw, _, _ => by unfold walk; exact hw
  | n :: ns, w, hw, hi, hb => by
    have h1 := visit_none io hio par n w hw hi.1 hb.1
    unfold walk
    dsimp only
    rw [h1]
    simp only [Option.isSome_none, Bool.false_eq_true, if_false]
    exact walk_none io hio par ns _ h1 hi.2 hb.2
end

end Quark.Archive
