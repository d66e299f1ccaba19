import Verif.MetaFile.Model

/-!
# The error file of a program

The sandbox writes what a program says on its standard error into a file; `invokeOmegajail` adds what the sandbox
itself has to say; `isJavaMLE` looks for a Java program that ran out of memory, and `getCompileError` shows the file
of a compiler to the user.

Characters stand for bytes. Simplifications: reading a file that exists does not fail, and `omegajail` itself is a
given: what it leaves in the files. A file is its content, or `none` if it is missing.
-/

namespace Quark.ErrorFile

/-- "java.lang.OutOfMemoryError", runner/sandbox.go:509. -/
def pattern : List Char :=
  ['j', 'a', 'v', 'a', '.', 'l', 'a', 'n', 'g', '.', 'O', 'u', 't', 'O', 'f', 'M', 'e', 'm', 'o', 'r', 'y', 'E', 'r', 'r', 'o', 'r']

/-- `strings.Contains`, runner/sandbox.go:509. -/
def contains (pat : List Char) : List Char → Bool
  | [] => pat.isEmpty
  | c :: cs => pat.isPrefixOf (c :: cs) || contains pat cs

/-- The buffer of runner/sandbox.go:502. -/
def bufSize : Nat := 4096

/-- The end of a line without its carriage return, as `bufio.Reader.ReadLine` has it. -/
def dropCR (l : List Char) : List Char := if l.getLast? = some '\r' then l.dropLast else l

/-- `bufio.Reader.ReadLine` with a buffer of `bufSize` bytes, for a file whose rest is the argument: the line or part of
it, and what comes after; `none` at the end. A line that does not fit is given in parts; a part does not end
with a carriage return. -/
def readLine (rest : List Char) : Option (List Char × List Char) :=
  let window := rest.take bufSize
  if '\n' ∈ window then
    some (dropCR (window.takeWhile (· ≠ '\n')), rest.drop ((window.takeWhile (· ≠ '\n')).length + 1))
  else if bufSize ≤ rest.length then
    if window.getLast? = some '\r' then some (window.dropLast, rest.drop (bufSize - 1))
    else some (window, rest.drop bufSize)
  else if rest = [] then none
  else some (rest, [])

/-- What is left gets shorter. -/
theorem readLine_shorter {rest l after : List Char} (h : readLine rest = some (l, after)) :
    after.length < rest.length := by
  have hb : bufSize = 4096 := rfl
  simp only [readLine] at h
  split at h
  · rename_i hm
    cases h
    have : rest ≠ [] := by rintro rfl; simp at hm
    have := List.length_pos_iff.mpr this
    simp only [List.length_drop]; omega
  · split at h
    · split at h <;> cases h <;> simp only [List.length_drop] <;> omega
    · split at h
      · cases h
      · rename_i hn
        cases h
        exact List.length_pos_iff.mpr hn

/-- runner/sandbox.go:503-512: the loop. -/
def anyLine (pat rest : List Char) : Bool :=
  match _h : readLine rest with
  | none => false
  | some (l, after) => contains pat l || anyLine pat after
termination_by rest.length
decreasing_by exact readLine_shorter (by assumption)

/-- runner/sandbox.go:490-515: `isJavaMLE`. -/
def isJavaMLE : Option (List Char) → Bool
  | none => false
  | some file => anyLine pattern file

/-- runner/sandbox.go:378-399: `appendFile`; `none` is a source that cannot be opened. -/
def appendFile (dest src : Option (List Char)) : Option (List Char) :=
  match src with
  | none => dest
  | some s => if s.length = 0 then dest else some (dest.getD [] ++ ['\n'] ++ s)

/-- What `omegajail` leaves behind. -/
structure Jail where
  /-- The standard output of the program. -/
  out : Option (List Char)
  /-- The standard error of the program. -/
  err : Option (List Char)
  /-- The meta file. -/
  metaFile : Option (List Char)
  /-- What `omegajail` itself says; `none` if its standard error could not be redirected (runner/sandbox.go:357-359). -/
  said : Option (List Char)

/-- runner/sandbox.go:351-376: `invokeOmegajail`: the error file afterwards. -/
def invokeOmegajail (j : Jail) : Option (List Char) := appendFile j.err j.said

/-- runner/sandbox.go:339-349, the end of `Run`: the verdict of a program, from the files. `none` is the case
of a missing meta file. -/
def run (limit : Int) (lang : String) (j : Jail) : Option (MetaFile.Meta × Bool) :=
  j.metaFile.map fun m => MetaFile.parseMetaFile (some limit) lang m (isJavaMLE (invokeOmegajail j)) (lang == "c")

/-! ## Compiling -/

/-- runner/sandbox.go:228-233. -/
def classNotFound (target : List Char) : List Char :=
  "Class `".toList ++ target ++ "` not found. Make sure your class is named `".toList ++ target ++
    "` and outside all packages".toList

structure Compiled where
  out : Option (List Char)
  err : Option (List Char)
  info : Option (MetaFile.Meta × Bool)

/-- runner/sandbox.go:214-245, the end of `Compile`; `classFound` says whether the class file is there. -/
def compile (lang : String) (target : List Char) (classFound : Bool) (j : Jail) : Compiled :=
  let err := invokeOmegajail j
  match j.metaFile with
  | none => ⟨j.out, err, none⟩
  | some m =>
    let r := MetaFile.parseMetaFile none lang m false false
    if lang = "java" ∧ r.1.verdict = .OK ∧ !classFound then
      ⟨j.out, some (err.getD [] ++ ['\n'] ++ classNotFound target), some ({ r.1 with verdict := .CE }, r.2)⟩
    else ⟨j.out, err, some r⟩

/-- runner/runner.go:1312-1323: `getCompileError`; `missing` is the text of the error for a file that is not there. -/
def getCompileError (missing : List Char) (file : Option (List Char)) : List Char := file.getD missing

/-- runner/runner.go:774-792: what the user is shown, if this binary cannot be compiled. -/
def compileError (name : List Char) (lang : String) (missing : List Char) (c : Compiled) : Option (List Char) :=
  match c.info with
  | some (m, false) => if m.verdict = .OK then none else shown
  | _ => shown
where
  shown : Option (List Char) :=
    some (name ++ [':', '\n'] ++ getCompileError missing (if lang = "pas" ∨ lang = "cs" then c.out else c.err))

end Quark.ErrorFile
