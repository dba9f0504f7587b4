import Verif.Skl.Refine
/-!
# Programs that read a `SkipListMap` page by page

A program keeps the last key of the page that it has read, and reads the next page with a new iterator, some time later: `it := m.Iterator(); it.Seek(last)` and then up to
`n` times `it.Next()`. In between the map is changed, by `Set`, `Del` and `Clear`. The calls are those of `Verif.Skl`.
-/
namespace Verif.SklPage
open Verif.Go Verif.MapSpec Verif.Skl

variable {K V : Type} [GoOrdered K] [Inhabited K] [Inhabited V]

/-- `for i := 0; i < n; i++ { k, v, ok := it.Next(); if !ok { break }; page = append(page, ...) }`, with sklmapx.go:213-225. -/
def take (w : World K V) : Nat → Iter → Outcome (List (K × V))
  | 0, _ => .ret []
  | n + 1, it => (Skl.next w it).bind fun
    | (_, none) => .ret []
    | (it', some e) => (take w n it').map (e :: ·)

/-- A page: `it := m.Iterator(); it.Seek(last)` (sklmapx.go:121-123, 199-207; the results of `Seek` are not looked at) and `take`. The first page is read without `Seek`. -/
def page (w : World K V) (last : Option K) (n : Nat) : Outcome (List (K × V)) :=
  match last with
  | none => take w n Skl.iterator
  | some k => (Skl.seek w Skl.iterator k).bind fun (it, _) => take w n it

/-- `for len(page) < n { k, v, ok := it.Next(); if !ok { break }; if k > last { page = append(page, ...) } }`. The first number is fuel. -/
def takeAfter (w : World K V) (last : K) : Nat → Nat → Iter → Outcome (List (K × V))
  | _, 0, _ => .ret []
  | 0, _ + 1, _ => .hang
  | f + 1, n + 1, it => (Skl.next w it).bind fun
    | (_, none) => .ret []
    | (it', some e) => if GoOrdered.lt last e.1 = true then (takeAfter w last f n it').map (e :: ·) else takeAfter w last f (n + 1) it'

/-- A page of a program that looks at `ok`: when `Seek` has not found the key (sklmapx.go:201-205), the program leaves out what comes before it. -/
def carefulPage (w : World K V) (last : Option K) (n : Nat) : Outcome (List (K × V)) :=
  match last with
  | none => take w n Skl.iterator
  | some k => (Skl.seek w Skl.iterator k).bind fun
    | (it, some _) => take w n it
    | (it, none) => takeAfter w k (w.heap.brk + 1) n it

/-- The last key that the program has seen. -/
def lastOf (last : Option K) (p : List (K × V)) : Option K :=
  match p.getLast? with
  | some e => some e.1
  | none => last

/-- The pages. Before each the map is changed by some calls. -/
def paging (read : World K V → Option K → Outcome (List (K × V))) : World K V → Option K → List (List (Op K V)) → Outcome (List (List (K × V)))
  | _, _, [] => .ret []
  | w, last, ops :: gaps => (run w ops).bind fun w' => (read w' last).bind fun p => (paging read w' (lastOf last p) gaps).map (p :: ·)

end Verif.SklPage
