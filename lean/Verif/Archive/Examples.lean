import Verif.Archive.Props
import Mathlib.Logic.Equiv.List
import Mathlib.Data.Countable.Basic

/-!
# Repositories whose files do not arrive as they are

Witnesses for what is false of C106 and C108, and examples that meet the hypotheses of the theorems.
-/

namespace Quark.Archive

/-! ### A codec -/

theorem countable_members : Countable (List Member) := by
  have : Countable Char := (show Function.Injective Char.toNat from fun a b h => Char.ext (by
    have : a.val.toNat = b.val.toNat := h
    exact UInt32.toNat_inj.1 this)).countable
  have h : Function.Injective (fun m : Member => match m with
      | .dir n => (Sum.inl n : Bytes ⊕ (Bytes × Bytes))
      | .file n c => Sum.inr (n, c)) := by
    intro a b h
    cases a <;> cases b <;> simp_all
  have : Countable Member := h.countable
  infer_instance

/-- There are codecs with the laws that are asked for: here, a number for each archive, in strokes and with a mark at
the end. -/
theorem exists_lawful : ∃ C : Codec, C.Lawful := by
  obtain ⟨f, hf⟩ := countable_members.exists_injective_nat
  let enc : List Member → Bytes := fun ms => List.replicate (f ms) '1' ++ ['0']
  have hpre : ∀ a b, enc a <+: enc b → a = b := by
    intro a b h
    apply hf
    obtain ⟨t, ht⟩ := h
    have h1 : ((enc a ++ t).takeWhile (· = '1')).length = f a := by
      simp [enc]
    have h2 : ((enc b).takeWhile (· = '1')).length = f b := by
      simp [enc]
    rw [ht] at h1
    rw [← h1, ← h2]
  classical
  refine ⟨⟨enc, fun b => if h : ∃ ms, enc ms = b then some h.choose else none⟩, ?_, ?_⟩
  · intro ms
    have h : ∃ ms', enc ms' = enc ms := ⟨ms, rfl⟩
    show (if h : ∃ ms', enc ms' = enc ms then some h.choose else none) = some ms
    rw [dif_pos h]
    have hc : enc h.choose = enc ms := h.choose_spec
    rw [hpre h.choose ms (by rw [hc])]
  · intro ms file hp
    show (if h : ∃ ms, enc ms = file then some h.choose else none) = none ∨ _
    by_cases h : ∃ ms, enc ms = file
    · right
      show (if h : ∃ ms, enc ms = file then some h.choose else none) = some ms
      rw [dif_pos h]
      have hc : enc h.choose = file := h.choose_spec
      rw [hpre h.choose ms (by rw [hc]; exact hp)]
    · left
      rw [dif_neg h]

/-! ### A disk -/

def exShard : Bytes := ['/', 'i']
def exId : Bytes := ['h']

/-- An empty disk with the directory `/i`, where there is another input `/i/o` with one file. -/
def exFS : FS := fun q =>
  if q = [] ∨ q = [['i']] ∨ q = [['i'], ['o']] then some .dir
  else if q = [['i'], ['o'], settingsName] then some (.file ['{', '}'])
  else none

theorem exFresh : Fresh exFS exShard exId := by
  have hn : Path.names exShard = [['i']] := by decide +kernel
  intro r
  rw [hn]
  constructor <;> simp [exFS, exId, dotTmp]

def vpy : Bytes := ['v', '.', 'p', 'y']
def testsName : Bytes := ['t', 'e', 's', 't', 's']

/-- A problem with settings, a directory of tests and a validator. -/
def exRoot (readable : Bool) : List Node :=
  [.tree ['c', 'a', 's', 'e', 's'] true [.blob ['1', '.', 'i', 'n'] true ['1', '\n'], .tree ['x'] true []],
   .other ['l', 'i', 'b'],
   .blob settingsName true ['{', '}'],
   .tree testsName readable [.blob ['t'] true ['a', 'b', 'c']],
   .blob vpy true ['p']]

theorem exRoot_valid (b : Bool) : Valid (exRoot b) := by
  cases b <;> simp [exRoot, Valid, Node.Valid, Node.name] <;> decide +kernel

theorem exRoot_blobs (b : Bool) : Blobs (exRoot b) := by simp [exRoot, Blobs, Node.Blobs]

theorem exRoot_intact : Intact (exRoot true) := by simp [exRoot, Intact, Node.Intact]

def exDecode (c : Bytes) : Option Unit := if c = ['{', '}'] then some () else none

theorem exDirs : ∀ q, q <+: Path.names exShard → isFile exFS q = false := by
  have hn : Path.names exShard = [['i']] := by decide +kernel
  rw [hn]
  intro q hq
  rcases prefix_snoc (base := []) hq with rfl | hq
  · decide +kernel
  · rw [List.prefix_nil.1 hq]; decide +kernel

/-- An intact repository arrives: C106, C107 and C109 are about something. -/
example : ∃ C : Codec, C.Lawful ∧ ∃ ms fs', createArchive (fun _ => true) (exRoot true) = some (ms, 8) ∧
    fetch C (fun b => b) (fun _ => true) exDecode (inputPath exShard exId) exFS (C.enc ms) (some 8) (C.enc ms) =
      some (fs', (), 8) ∧
    problemSettings exDecode (exRoot true) = some () ∧
    contents (exRoot true) [testsName, ['t']] = some (.file ['a', 'b', 'c']) := by
  obtain ⟨C, hC⟩ := exists_lawful
  obtain ⟨ms, h1, fs', h2⟩ := C106_succeeds hC (H := fun b => b) (gio := fun _ => true) (rio := fun _ => true)
    (decode := exDecode) (shard := exShard) (id := exId) (c := ['{', '}']) (s := ()) (fun _ => rfl) (fun _ => rfl)
    (by decide) (by decide +kernel) (exRoot_valid true) (exRoot_blobs true) (by decide +kernel) (by decide) exFresh exDirs
  have ht : total (cut (exRoot true)).1 = 8 := by decide +kernel
  rw [ht] at h1 h2
  exact ⟨C, hC, ms, fs', h1, h2, by decide +kernel, by decide +kernel⟩

/-- **C106 is false of repositories with an unreadable subtree**: for every codec there is a repository of which the
grader makes an archive and the runner unpacks it, both without an error, and the runner does not have the problem's
validator, nor its tests. -/
theorem C106_loses_files {C : Codec} (hC : C.Lawful) : ∃ (root : List Node) (ms : List Member) (size : Nat) (fs' : FS),
    Valid root ∧ createArchive (fun _ => true) root = some (ms, size) ∧
    fetch C (fun b => b) (fun _ => true) exDecode (inputPath exShard exId) exFS (C.enc ms) (some size) (C.enc ms) =
      some (fs', (), size) ∧
    contents root [vpy] = some (.file ['p']) ∧ fs' (Path.names (inputPath exShard exId) ++ [vpy]) = none ∧
    contents root [testsName, ['t']] = some (.file ['a', 'b', 'c']) ∧
    fs' (Path.names (inputPath exShard exId) ++ [testsName, ['t']]) = none := by
  obtain ⟨ms, h1, fs', h2⟩ := C106_succeeds hC (H := fun b => b) (gio := fun _ => true) (rio := fun _ => true)
    (decode := exDecode) (shard := exShard) (id := exId) (c := ['{', '}']) (s := ()) (fun _ => rfl) (fun _ => rfl)
    (by decide) (by decide +kernel) (exRoot_valid false) (exRoot_blobs false) (by decide +kernel) (by decide) exFresh
    exDirs
  have hx := C106_exact hC (H := fun b => b) (by decide) (by decide +kernel) (exRoot_valid false) h1 (List.prefix_refl _)
    (fun _ => rfl) exFresh h2
  refine ⟨exRoot false, ms, _, fs', exRoot_valid false, h1, h2, by decide +kernel, ?_, by decide +kernel, ?_⟩
  · rw [hx]; decide +kernel
  · rw [hx]; decide +kernel

/-- The order decides: with the unreadable subtree before `settings.json`, no archive is made. -/
example : createArchive (fun _ => true)
    [.tree ['c', 'a', 's', 'e', 's'] false [], .blob settingsName true ['{', '}']] = none := by decide +kernel

/-- A repository with a tree called `..`, as git itself does not make, but libgit2 reads. -/
def evilRoot : List Node :=
  [.tree ['.', '.'] true [.tree ['o'] true [.blob settingsName true ['b', 'a', 'd']]],
   .blob settingsName true ['{', '}']]

/-- **C108 is false of repositories with other names**: the grader puts a tree called `..` into the archive as it is
and the runner writes outside of the input's directory: here it replaces the settings of another problem. -/
theorem C108_escapes {C : Codec} (hC : C.Lawful) : ∃ (ms : List Member) (size : Nat),
    createArchive (fun _ => true) evilRoot = some (ms, size) ∧ Fresh exFS exShard exId ∧
    exFS [['i'], ['o'], settingsName] = some (.file ['{', '}']) ∧
    ((fetch C (fun b => b) (fun _ => true) exDecode (inputPath exShard exId) exFS (C.enc ms) (some size)
      (C.enc ms)).map fun x => x.1 [['i'], ['o'], settingsName]) = some (some (.file ['b', 'a', 'd'])) := by
  have hc : createArchive (fun _ => true) evilRoot =
      some ([.dir ['.', '.'], .dir ['.', '.', '/', 'o'], .file ('.' :: '.' :: '/' :: 'o' :: '/' :: settingsName)
        ['b', 'a', 'd'], .file settingsName ['{', '}']], 5) := by decide +kernel
  refine ⟨_, _, hc, exFresh, by decide +kernel, ?_⟩
  unfold fetch
  simp only [hC.whole, beq_self_eq_true]
  decide +kernel

example : ¬ Valid evilRoot := by
  simp only [evilRoot, Valid, Node.Valid]
  rintro ⟨⟨h, _⟩, _⟩
  exact h.2 rfl

end Quark.Archive
