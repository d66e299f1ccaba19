import Verif.Trigger.Props

/-!
# C118: the message arrives as it was printed; concrete cases
-/

namespace Quark.Trigger

open Quark.Wire (Bytes quote quoteAscii unquote clean safe hexDigit encodeRune IsScalar ValidUtf8)
open Quark.Tokenizer (decodeRune runeError decodeRune_pos)

theorem valid_append {a b : Bytes} (ha : ValidUtf8 a) (hb : ValidUtf8 b) : ValidUtf8 (a ++ b) := by
  obtain ⟨ra, ha, rfl⟩ := ha
  obtain ⟨rb, hb, rfl⟩ := hb
  refine ⟨ra ++ rb, ?_, by rw [List.flatMap_append]⟩
  intro r hr
  rcases List.mem_append.mp hr with h | h
  · exact ha r h
  · exact hb r h

theorem valid_ascii (a : Bytes) (ha : ∀ b ∈ a, b.toNat < 0x80) : ValidUtf8 a := by
  induction a with
  | nil => exact ⟨[], by simp, rfl⟩
  | cons b a ih =>
    have hb := ha b (List.mem_cons_self ..)
    refine valid_append (a := [b]) ⟨[b.toNat], ?_, ?_⟩ (ih fun c hc => ha c (List.mem_cons_of_mem _ hc))
    · intro r hr
      rw [List.mem_singleton] at hr
      subst hr
      exact Or.inl (by omega)
    · simp [encodeRune, hb]

theorem hexDigit_ascii (n : Nat) (h : n < 16) : (hexDigit n).toNat < 0x80 := by
  unfold hexDigit
  rw [Wire.toNat_ofNat_lt (by split <;> omega)]
  split <;> omega

theorem quoteAscii_ascii {b : UInt8} (hb : b.toNat < 0x80) : ∀ c ∈ quoteAscii b, c.toNat < 0x80 := by
  have h1 := hexDigit_ascii (b.toNat / 16) (by omega)
  have h2 := hexDigit_ascii (b.toNat % 16) (by omega)
  unfold quoteAscii
  intro c hc
  have hlit : (0x5C : UInt8).toNat < 0x80 ∧ (0x6E : UInt8).toNat < 0x80 ∧ (0x72 : UInt8).toNat < 0x80 ∧
    (0x74 : UInt8).toNat < 0x80 ∧ (0x75 : UInt8).toNat < 0x80 ∧ (0x30 : UInt8).toNat < 0x80 := by decide
  obtain ⟨l1, l2, l3, l4, l5, l6⟩ := hlit
  split_ifs at hc <;> simp only [List.mem_cons, List.not_mem_nil, or_false] at hc
  · rw [hc]; exact hb
  · rcases hc with rfl | rfl <;> assumption
  · rcases hc with rfl | rfl <;> assumption
  · rcases hc with rfl | rfl <;> assumption
  · rcases hc with rfl | rfl <;> assumption
  · rcases hc with rfl | rfl | rfl | rfl | rfl | rfl <;> assumption

/-- Whatever a string is, its quoted form is valid UTF-8. -/
theorem valid_quote (s : Bytes) : ValidUtf8 (quote s) := by
  induction hn : s.length using Nat.strongRecOn generalizing s with
  | _ n ih =>
    match s with
    | [] => rw [quote]; exact ⟨[], by simp, rfl⟩
    | b :: rest =>
      have hpos := decodeRune_pos b rest
      have hlr : rest.length < n := by rw [← hn]; simp
      have hld : ((b :: rest).drop (decodeRune (b :: rest)).2).length < n := by
        rw [← hn]; simp only [List.length_drop, List.length_cons]; omega
      rw [quote]
      by_cases hb : b.toNat < 0x80
      · rw [if_pos hb]
        exact valid_append (valid_ascii _ (quoteAscii_ascii hb)) (ih _ hlr rest rfl)
      · rw [if_neg hb]
        simp only
        split
        · exact valid_append (valid_ascii _ (by decide)) (ih _ hlr rest rfl)
        · rename_i hv
          obtain ⟨h1, h2, h3, h4⟩ := rune_high hb hv
          split
          · refine valid_append (valid_ascii _ ?_) (ih _ hld _ rfl)
            have := hexDigit_ascii ((decodeRune (b :: rest)).1 % 16) (by omega)
            intro c hc
            simp only [List.mem_cons, List.not_mem_nil, or_false] at hc
            rcases hc with rfl | rfl | rfl | rfl | rfl | rfl
            · decide
            · decide
            · decide
            · decide
            · decide
            · exact this
          · refine valid_append ?_ (ih _ hld _ rfl)
            rw [← h3]
            exact ⟨[_], by simpa using h1, by simp⟩

theorem Atom.ascii {a : Bytes} (h : Atom a) : ∀ b ∈ a, b.toNat < 0x80 := by
  rcases h with rfl | rfl | rfl | ⟨_, h2⟩
  · decide
  · decide
  · decide
  · intro b hb
    rcases h2 b hb with h | h
    · omega
    · simp only [List.mem_cons, List.not_mem_nil, or_false] at h
      rcases h with rfl | rfl | rfl | rfl | rfl <;> decide

theorem text_append (a b : List Tok) : text (a ++ b) = text a ++ text b := by
  simp [text, List.flatMap_append]

theorem valid_raw {x : Bytes} {ts : List Tok} (hx : ∀ b ∈ x, b.toNat < 0x80) (h : ValidUtf8 (text ts)) :
    ValidUtf8 (text (.raw x :: ts)) := by
  rw [text_cons]; exact valid_append (valid_ascii _ hx) h

theorem valid_str (s : Bytes) {ts : List Tok} (h : ValidUtf8 (text ts)) : ValidUtf8 (text (.str s :: ts)) := by
  rw [text_cons]
  exact valid_append (valid_append (a := [0x22]) (valid_ascii _ (by decide))
    (valid_append (valid_quote s) (valid_ascii _ (by decide)))) h

theorem valid_nil : ValidUtf8 (text []) := ⟨[], by simp, rfl⟩

mutual
theorem valid_toks : ∀ j, WellFormed j → ValidUtf8 (text (toks j))
  | .atom a, h => valid_raw (Atom.ascii h) valid_nil
  | .str s, _ => valid_str s valid_nil
  | .arr .nil, _ => valid_raw (by decide) (valid_raw (by decide) valid_nil)
  | .arr (.cons j l), h => by
    obtain ⟨h1, h2⟩ : WellFormed j ∧ ItemsOk l := h
    simp only [toks, itemToks]
    refine valid_raw (by decide) ?_
    rw [text_append, text_append]
    exact valid_append (valid_append (valid_toks j h1) (valid_moreItems l h2)) (valid_raw (by decide) valid_nil)
  | .obj .nil, _ => valid_raw (by decide) (valid_raw (by decide) valid_nil)
  | .obj (.cons k j l), h => by
    obtain ⟨h1, h2⟩ : WellFormed j ∧ MembersOk l := h
    simp only [toks, memberToks, List.cons_append]
    refine valid_raw (by decide) (valid_str k (valid_raw (by decide) ?_))
    rw [text_append, text_append]
    exact valid_append (valid_append (valid_toks j h1) (valid_moreMembers l h2)) (valid_raw (by decide) valid_nil)
theorem valid_moreItems : ∀ l, ItemsOk l → ValidUtf8 (text (moreItems l))
  | .nil, _ => valid_nil
  | .cons j l, h => by
    obtain ⟨h1, h2⟩ : WellFormed j ∧ ItemsOk l := h
    simp only [moreItems]
    refine valid_raw (by decide) ?_
    rw [text_append]
    exact valid_append (valid_toks j h1) (valid_moreItems l h2)
theorem valid_moreMembers : ∀ l, MembersOk l → ValidUtf8 (text (moreMembers l))
  | .nil, _ => valid_nil
  | .cons k j l, h => by
    obtain ⟨h1, h2⟩ : WellFormed j ∧ MembersOk l := h
    simp only [moreMembers]
    refine valid_raw (by decide) (valid_str k (valid_raw (by decide) ?_))
    rw [text_append]
    exact valid_append (valid_toks j h1) (valid_moreMembers l h2)
end

/-- C118: whatever bytes the strings in it had, a printed message arrives at the handler byte for byte. -/
theorem C118_transport {j : Json} (hj : WellFormed j) : received (print j) = some (print j) := by
  unfold received
  rw [Wire.unquote_quote, (Wire.clean_eq_iff (print j)).mpr (valid_toks j hj)]

/-- C118, from the grader's fields to the scoreboard loop: the announcement of a run, quoted, sent and decoded,
refreshes its contest. -/
theorem C118_grader_arrives {r : SerializedRun} (h : r.Ok) {contest : Bytes} (hc : contest ≠ []) :
    (received (print (announcement r))).bind (refresh contest) = some contest := by
  rw [C118_transport (announcement_ok h)]
  exact C118_grader h hc

/-! ### Concrete cases -/

/-- A run of user `ada` whose problem is called like the text that is looked for. -/
def sampleRun : SerializedRun where
  user := key "ada"
  contest := some (key "c")
  problemset := some (key "12")
  problem := pattern
  guid := key "00"
  runtime := key "0.5"
  penalty := key "0"
  memory := key "1024"
  score := key "1"
  contestScore := key "100"
  status := key "ready"
  verdict := key "AC"
  submitDelay := key "0"
  time := key "1600000000"
  language := key "cpp"

theorem sampleRun_ok : sampleRun.Ok := by
  have hd : ∀ a : Bytes, a ≠ [] → (∀ b ∈ a, (0x30 ≤ b.toNat ∧ b.toNat ≤ 0x39) ∨ b ∈ [0x2B, 0x2D, 0x2E, 0x65, 0x45]) →
      Atom a := fun a h1 h2 => Or.inr (Or.inr (Or.inr ⟨h1, h2⟩))
  refine ⟨?_, ?_, ?_, ?_, ?_, ?_, ?_, ?_⟩
  · intro c hc
    obtain rfl : key "12" = c := Option.some.inj hc
    exact hd _ (by decide +kernel) (by decide +kernel)
  all_goals exact hd _ (by decide +kernel) (by decide +kernel)

/-- The hypotheses of `C118_grader` and `C118_grader_arrives` are met. -/
example : (received (print (announcement sampleRun))).bind (refresh (key "c")) = some (key "c") :=
  C118_grader_arrives sampleRun_ok (by decide)

/-- The same run's message under another name: only its strings contain the pattern. -/
def quiet : Members :=
  members [(key "message", .str (key "/clarification/update/")), (key "clarification", .obj (members
    [(key "author", .str (key "ada")), (key "text", .str pattern), (key "id", .atom (key "7"))]))]

theorem quiet_ok : MembersOk quiet := by
  unfold quiet
  rw [membersOk_iff]
  intro p hp
  simp only [List.mem_cons, List.not_mem_nil, or_false] at hp
  rcases hp with rfl | rfl
  · trivial
  · show MembersOk _
    rw [membersOk_iff]
    intro p hp
    simp only [List.mem_cons, List.not_mem_nil, or_false] at hp
    rcases hp with rfl | rfl | rfl
    · trivial
    · trivial
    · exact Or.inr (Or.inr (Or.inr ⟨by decide +kernel, by decide +kernel⟩))

/-- C118: somebody who writes `"message":"/run/update/"` into a clarification does not cause a refresh. -/
theorem C118_quiet : refresh (key "c") (print (.obj quiet)) = none := by decide +kernel

/-- The full claim, that only a message whose own name is `/run/update/` refreshes the scoreboard, is false: an inner
object's member counts as well... -/
def nested : Members :=
  members [(key "message", .str (key "/clarification/update/")),
    (key "x", .obj (members [(key "message", .str (key "/run/update/"))]))]

theorem C118_nested : MembersOk nested ∧ (msg, Json.str update) ∉ nested.toList ∧
    refresh (key "c") (print (.obj nested)) = some (key "c") := by
  refine ⟨⟨trivial, ⟨trivial, trivial⟩, trivial⟩, ?_, by decide +kernel⟩
  intro h
  simp only [nested, members, Members.toList, List.mem_cons, List.not_mem_nil, or_false, Prod.mk.injEq,
    Json.str.injEq, reduceCtorEq, and_false] at h
  revert h
  decide +kernel

/-- ...and so does a member whose name ends in `"message`. -/
def oddKey : Members :=
  members [(key "a\"message", .str (key "/run/update/"))]

theorem C118_odd_key : MembersOk oddKey ∧ (msg, Json.str update) ∉ oddKey.toList ∧
    refresh (key "c") (print (.obj oddKey)) = some (key "c") := by
  refine ⟨⟨trivial, trivial⟩, ?_, by decide +kernel⟩
  intro h
  simp only [oddKey, members, Members.toList, List.mem_cons, List.not_mem_nil, or_false, Prod.mk.injEq] at h
  exact absurd h.1 (by decide +kernel)

/-- JSON that is not printed by Go: with a blank after the colon, or with `\/` for `/` as PHP prints it, the
announcement of a run does not cause a refresh. -/
theorem C118_other_printers :
    refresh (key "c") (key "{\"message\": \"/run/update/\"}") = none ∧
    refresh (key "c") (key "{\"message\":\"\\/run\\/update\\/\"}") = none ∧
    refresh (key "c") (key "{\"message\":\"/run/update/\"}") = some (key "c") := by
  decide +kernel

/-- The hypotheses of `C118_top` are met. -/
example : refresh (key "c") (print (.obj (members [(msg, .str update), (key "n", .atom (key "3"))]))) =
    some (key "c") := by
  refine (C118_top (l := members [(msg, .str update), (key "n", .atom (key "3"))]) ?_ (by decide) ?_ ?_).mpr ?_
  · rw [membersOk_iff]
    intro p hp
    simp only [List.mem_cons, List.not_mem_nil, or_false] at hp
    rcases hp with rfl | rfl
    · trivial
    · exact Or.inr (Or.inr (Or.inr ⟨by decide +kernel, by decide +kernel⟩))
  · intro p hp hk
    simp only [members, Members.toList, List.mem_cons, List.not_mem_nil, or_false] at hp
    rcases hp with rfl | rfl
    · rfl
    · rcases hk with h | ⟨t, h⟩
      · exact h
      · have := congrArg List.length h
        simp [msg] at this
        have h1 : (key "n").length = 1 := by decide
        omega
  · intro p hp k x _ h
    simp only [members, Members.toList, List.mem_cons, List.not_mem_nil, or_false] at hp
    rcases hp with rfl | rfl <;> exact h
  · exact List.mem_cons_self ..

/-- The text of a small message, as `encoding/json` prints it: `{"a":["b",3],"c":4}`. -/
example : print (.obj (.cons (key "a") (.arr (.cons (.str (key "b")) (.cons (.atom (key "3")) .nil)))
      (.cons (key "c") (.atom (key "4")) .nil))) = "{\"a\":[\"b\",3],\"c\":4}".toUTF8.data.toList := by
  decide +kernel

end Quark.Trigger
