import Verif.Wire.Model

/-!
# Names of members

`encoding/json` finds the field for a member of an object without regard to case.
-/
namespace Quark.Wire

/-! ## Specification -/

/-- Letters that are the same but for case: of the two non-ASCII letters that are a case of an ASCII letter, `ſ` (U+017F)
is a case of `s` and the Kelvin sign (U+212A) of `k`. -/
def SameLetter (a b : Char) : Prop :=
  a = b ∨ (65 ≤ a.toNat ∧ a.toNat ≤ 90 ∧ b.toNat = a.toNat + 32) ∨ (65 ≤ b.toNat ∧ b.toNat ≤ 90 ∧ a.toNat = b.toNat + 32) ∨
  (a ∈ ['s', 'S', 'ſ'] ∧ b ∈ ['s', 'S', 'ſ']) ∨ (a ∈ ['k', 'K', '\u212a'] ∧ b ∈ ['k', 'K', '\u212a'])

instance (a b : Char) : Decidable (SameLetter a b) := by unfold SameLetter; infer_instance

/-- Names that are the same but for the case of their letters. -/
def SameName (k n : String) : Prop := List.Forall₂ SameLetter k.toList n.toList

instance (k n : String) : Decidable (SameName k n) := by unfold SameName; infer_instance

/-! ## What the model does -/

theorem foldChar_toNat (c : Char) : (foldChar c).toNat =
    if 65 ≤ c.toNat ∧ c.toNat ≤ 90 then c.toNat + 32 else if c.toNat = 0x17F then 115
    else if c.toNat = 0x212A then 107 else c.toNat := by
  unfold foldChar
  by_cases h1 : 65 ≤ c.toNat ∧ c.toNat ≤ 90
  · rw [if_pos h1, if_pos h1, Char.ofNat, dif_pos (by unfold Nat.isValidChar; omega)]; rfl
  rw [if_neg h1, if_neg h1]
  by_cases h2 : c.toNat = 0x17F
  · rw [if_pos h2, if_pos h2]; rfl
  rw [if_neg h2, if_neg h2]
  by_cases h3 : c.toNat = 0x212A
  · rw [if_pos h3, if_pos h3]; rfl
  rw [if_neg h3, if_neg h3]

theorem foldChar_iff (a b : Char) : foldChar a = foldChar b ↔ SameLetter a b := by
  have e : ∀ c d : Char, c = d ↔ c.toNat = d.toNat := fun c d => ⟨fun h => h ▸ rfl, fun h => Char.toNat_inj.mp h⟩
  have v1 : 's'.toNat = 115 := rfl
  have v2 : 'S'.toNat = 83 := rfl
  have v3 : 'ſ'.toNat = 0x17F := rfl
  have v4 : 'k'.toNat = 107 := rfl
  have v5 : 'K'.toNat = 75 := rfl
  have v6 : '\u212a'.toNat = 0x212A := rfl
  simp only [SameLetter, List.mem_cons, List.not_mem_nil, or_false, e, foldChar_toNat, v1, v2, v3, v4, v5, v6]
  generalize a.toNat = x
  generalize b.toNat = y
  repeat' split
  all_goals omega

theorem foldName_iff (k n : String) : foldName k = foldName n ↔ SameName k n := by
  unfold foldName SameName
  rw [show ∀ l m : List Char, (String.ofList l = String.ofList m ↔ l = m) from fun l m => ⟨fun h => by simpa using congrArg String.toList h, fun h => h ▸ rfl⟩]
  generalize k.toList = l
  generalize n.toList = m
  induction l generalizing m with
  | nil => cases m <;> simp
  | cons a l ih =>
    cases m with
    | nil => simp
    | cons b m => simp only [List.map_cons, List.cons.injEq, List.forall₂_cons, foldChar_iff, ih]

end Quark.Wire
