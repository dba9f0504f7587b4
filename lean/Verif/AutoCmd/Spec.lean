import Verif.AutoCmd.Model
/-!
# Directories of a tree, as facts
-/
namespace Verif.AutoCmd

/-- The path leads to a directory. -/
inductive Forest.Dir : Forest → Path → Prop
  | here {n e kids rest} : e.dir = true → Forest.Dir (.cons n e kids rest) [n]
  | inner {n e kids rest p} : e.dir = true → Forest.Dir kids p → Forest.Dir (.cons n e kids rest) (n :: p)
  | next {n e kids rest p} : Forest.Dir rest p → Forest.Dir (.cons n e kids rest) p

/-- The path leads to a directory of the tree; the empty path is the start directory. -/
def Fs.Dir (fs : Fs) (p : Path) : Prop := p = [] ∨ fs.kids.Dir p

/-- The path leads into no directory named vendor or .git. -/
def Outside (p : Path) : Prop := "vendor" ∉ p ∧ ".git" ∉ p

/-- The names of the entries of one directory. -/
def Forest.names : Forest → List String
  | .nil => []
  | .cons n _ _ rest => n :: rest.names

/-- No directory has two entries of one name, and only directories have entries. -/
def Forest.Ok : Forest → Prop
  | .nil => True
  | .cons n e kids rest => n ∉ rest.names ∧ (e.dir = false → kids = .nil) ∧ kids.Ok ∧ rest.Ok

/-- The path leads to a directory that may be entered, through directories that may be read and entered; `e` is what
the system knows of it. -/
inductive Forest.Clear : Forest → Path → Ent → Prop
  | here {n e kids rest} : e.dir = true → e.enter = true → Forest.Clear (.cons n e kids rest) [n] e
  | inner {n e kids rest p e'} : e.dir = true → e.read = true → e.enter = true → Forest.Clear kids p e' →
      Forest.Clear (.cons n e kids rest) (n :: p) e'
  | next {n e kids rest p e'} : Forest.Clear rest p e' → Forest.Clear (.cons n e kids rest) p e'

/-- The same from the start directory. -/
def Fs.Clear (fs : Fs) (p : Path) (e : Ent) : Prop := fs.root.read = true ∧ fs.root.enter = true ∧ fs.kids.Clear p e

/-- Every directory may be read and entered. -/
def Forest.Open : Forest → Prop
  | .nil => True
  | .cons _ e kids rest => (e.dir = true → e.read = true ∧ e.enter = true) ∧ kids.Open ∧ rest.Open

/-- A tree below a directory. -/
structure Fs.Ok (fs : Fs) : Prop where
  dir : fs.root.dir = true
  kids : fs.kids.Ok

/-- Every directory of the tree may be read and entered. -/
structure Fs.Open (fs : Fs) : Prop where
  read : fs.root.read = true
  enter : fs.root.enter = true
  kids : fs.kids.Open

end Verif.AutoCmd
