import Verif.Literal.Props
import Verif.Archive.Props

/-!
# The files of an ephemeral run on the runner

A literal input (`Verif.Literal`) is an archive that the grader makes and a runner fetches and unpacks
(`Verif.Archive`).
-/

namespace Quark.Sent

/-- What `createTar` writes for the files of an input (/repo/common/literalinput.go:574-603): one regular file for each,
with its name as it is, and no directories. -/
def members (files : List (Literal.Str × Literal.Str)) : List Archive.Member :=
  files.map fun f => .file f.1 f.2

/-- The archive is written by `archive/tar` and `compress/gzip` (/repo/common/literalinput.go:575-579 and 383-386),
the same that the runner reads with (/repo/runner/input.go:193-211), into memory, where writing does not fail. (A tar
writer refuses names with a NUL; they are not considered.) -/
def Packs {ι : Type} (C : Archive.Codec) (T : Literal.Tools ι) : Prop :=
  ∀ files, T.gzipTar files = C.enc (members files)

end Quark.Sent
