/-!
# cmd/autotidy and cmd/autoupdate

Both programs walk the directory they are started in and run one `go` command in every directory; they differ in the
arguments of that command only (cmd/autotidy/autotidy.go:20, cmd/autoupdate/autoupdate.go:20).

From outside: `filepath.WalkDir` of Go 1.19 (path/filepath/path.go: `walkDir`, `readDir`, `WalkDir`), and the file
system as a tree with the permissions that `chdir` and `opendir` look at. Left out: `os.Getwd` and `os.Lstat(".")`
succeed; the commands do not add, remove or rename directories and do not change permissions; symbolic links are
entries that are not directories, as `WalkDir` has them.
-/
namespace Verif.AutoCmd

/-- A path from the directory the program was started in. -/
abbrev Path := List String

/-- What the system knows of an entry: is it a directory, may it be read (`r`), may it be entered (`x`)? -/
structure Ent where
  dir : Bool
  read : Bool
  enter : Bool
  deriving DecidableEq

/-- The entries of a directory in the order of `readDir`, each with its own entries. -/
inductive Forest where
  | nil
  | cons (name : String) (e : Ent) (kids rest : Forest)

/-- The file system below the directory the program is started in. -/
structure Fs where
  root : Ent
  kids : Forest

/-- Looking a path up. Every directory on the way must allow entering. -/
def Forest.find : Forest → Path → Option Ent
  | .nil, _ => none
  | .cons .., [] => none
  | .cons n e kids rest, x :: xs =>
    if n = x then
      if xs = [] then some e
      else if e.dir && e.enter then kids.find xs else none
    else rest.find (x :: xs)

/-- Looking a path up from the start directory; the empty path is the start directory. -/
def Fs.find (fs : Fs) : Path → Option Ent
  | [] => some fs.root
  | x :: xs => if fs.root.enter then fs.kids.find (x :: xs) else none

/-- Does `chdir` succeed? -/
def Fs.canEnter (fs : Fs) (p : Path) : Bool := match fs.find p with
  | some e => e.dir && e.enter
  | none => false

/-- Does `readDir` succeed? -/
def Fs.canRead (fs : Fs) (p : Path) : Bool := match fs.find p with
  | some e => e.dir && e.read
  | none => false

/-- The working directory of the process, and the working directories of the commands run so far. -/
structure St where
  cwd : Path
  log : List Path

/-- The test at cmd/autotidy/autotidy.go:15. -/
def skipName (n : String) : Bool := n == "vendor" || n == ".git"

/-- The callback, cmd/autotidy/autotidy.go:13-25, and the same lines of autoupdate.go. The results of `os.Chdir` and
of the command are not looked at. The result says whether the callback returns `SkipDir`. `os.Chdir(workdir)` at line
22 has the full path of the start directory; if that cannot be entered, the process has not left it. -/
def callback (fs : Fs) (p : Path) (name : String) (e : Ent) (s : St) : Bool × St :=
  if e.dir then
    if skipName name then (true, s)
    else
      let cwd := if fs.canEnter (s.cwd ++ p) then s.cwd ++ p else s.cwd
      (false, ⟨[], s.log ++ [cwd]⟩)
  else (false, s)

/-- `walkDir` for the entries of a directory, path/filepath/path.go. A directory that cannot be read is reported by
a second call of the callback, and has no entries then. (The second call returns what the first one did, and that was
not `SkipDir`.) The callback leaves the process in the start directory, so `readDir` finds the entry itself. -/
def walk (fs : Fs) : Forest → Path → St → St
  | .nil, _, s => s
  | .cons n e kids rest, p, s =>
    let r := callback fs (p ++ [n]) n e s
    let s := if r.1 || !e.dir then r.2
      else if fs.canRead (r.2.cwd ++ (p ++ [n])) then walk fs kids (p ++ [n]) r.2
      else (callback fs (p ++ [n]) n e r.2).2
    walk fs rest p s

/-- `main`, cmd/autotidy/autotidy.go:11-27: `WalkDir(".")`. The entry of the start directory has the name ".". -/
def main (fs : Fs) : St :=
  let r := callback fs [] "." fs.root ⟨[], []⟩
  if r.1 || !fs.root.dir then r.2
  else if fs.canRead r.2.cwd then walk fs fs.kids [] r.2
  else (callback fs [] "." fs.root r.2).2

end Verif.AutoCmd
