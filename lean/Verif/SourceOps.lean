/-
Reading and copying the object of a metadata source (metadatasource.py 96-119 and
160-164).
-/
import Verif.Git
import Verif.Source

namespace MM

/-- Characters that `sh` does not take as a part of a word -/
def shellChars : Str := [' ', '\t', '\n', '"', '\'', '\\', '$', '`', '&', ';', '|', '<', '>', '(', ')', '*', '?', '[', '#', '~']

/-- Paths and references are put into a shell command without quotes (metadatasource.py 97-98,
111-114).  One with a blank is taken for two words, and the command fails.  The other special
characters have other effects, which may be anything; here the command fails, too. -/
def shellPlain (s : Str) : Bool := s.all fun c => !shellChars.contains c

/-- `git --git-dir path/.git cat-file blob reference` (metadatasource.py 97-98, 111-112).
Abbreviated hashes are not resolved here. -/
def catBlob (C : Cfg) (p : PPath) (ref : Str) : G Str := gitCmd fun L =>
  ([], if shellPlain p.purePosixStr && shellPlain ref then
    match resolve C L p.purePosixStr ref with
    | some (.blob s) => .ok s
    | _ => .error .runtime
  else .error .runtime)

/-- `git --git-dir path/.git hash-object -w --stdin` (metadatasource.py 113-117).  The `CalledProcessError` of `check_output` is
a `RuntimeError` here. -/
def hashObject (C : Cfg) (p : PPath) (s : Str) : G Str := gitCmd fun _ =>
  if shellPlain p.purePosixStr then ([.save p.purePosixStr (.blob s)], .ok (C.hash (.blob s)))
  else ([], .error .runtime)

/-- `write_object_to` (metadatasource.py 96-103, 163-164): what is written to the file.
Output of a command that fails is left out. -/
def Source.writeObject (C : Cfg) : Source → G Str
  | .localGit p ref => catBlob C p ref
  | .immediate j => pure (dumps C.floats j)

/-- `copy_object_to` (metadatasource.py 105-119, 160-161).  The two commands are a pipe, of which
the shell returns the result of the second command only: if the first one fails, the second one
reads nothing. -/
def Source.copyObject (C : Cfg) (dst : PPath) : Source → G (Option Str)
  | .localGit p ref => do
    let s ← M.catchRuntime (catBlob C p ref) (pure [])
    let h ← hashObject C dst s
    M.assert (h = ref)
    pure (some h)
  | .immediate _ => pure none

end MM
