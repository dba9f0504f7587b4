import Verif.Slicex.Model

/-! The tables of dsx/slicex/slicex_test.go, run on the model of slicex: each row is a call that the
authors of the code expect to give the listed result. These are tests of the *model* (a row on which
the model and the authors' expectation differ would fail the build), not proofs of any claim.

A value of type `any` is `none` for `nil` and `some k` otherwise; the values that are not small
integers have got numbers from 900 on. `New(xs...)` holds the array of the variadic arguments. Each row
is run with three choices of how much more than needed `append` allocates. -/
namespace Verif.RepoTests
open Verif.Go Verif.Slicex

abbrev V := Option Int

/-- A memory with `xs` and then `ys` in arrays of their own, and the slices of them. -/
def two (xs ys : List V) : Hp V × Sl × Sl :=
  let (h, s) := Hp.alloc (⟨fun _ _ => none, 0⟩ : Hp V) xs 0
  let (h, v) := h.alloc ys 0
  (h, s, v)

/-- The value of a call that returned, and what the slice then holds. -/
def got (o : Outcome (Hp V × Sl)) (expect : List V) : Bool :=
  match o with
  | .ret (h, s) => elems h s == expect
  | _ => false

/-- The amounts of extra room tried. -/
def growths : List (Nat × Nat) := [(0, 0), (1, 0), (3, 7)]

def copyT (xs : List V) : Bool := growths.all fun g =>
  let (h, s, _) := two xs []; got (.ret (copy h g.1 s)) xs

/-- slicex_test.go:38-50: `Extend` an empty slice, `Set` each index, `Get` each, compare. -/
def setGetT (n : Int) (is : List Int) (vs expect : List V) : Bool := growths.all fun g =>
  let (h, s, _) := two [] []
  match extend 1000000 h g.1 s n with
  | .ret (h, s) =>
    let o : Outcome (Hp V) := (is.zip vs).foldl (fun o p => o.bind fun h => Slicex.set h s p.1 p.2) (.ret h)
    match o with
    | .ret h => elems h s == expect &&
        (is.zip vs).all fun p => (match Slicex.get h s p.1 with | .ret v => v == p.2 | _ => false)
    | _ => false
  | _ => false

def sliceT (xs : List V) (i j : Int) (expect : List V) : Bool :=
  let (h, s, _) := two xs []
  got ((slice s i j).bind fun s => .ret (h, s)) expect

def spliceT (xs : List V) (i j : Int) (vs expect : List V) : Bool := growths.all fun g =>
  let (h, s, v) := two xs vs; got (splice h g.1 g.2 s i j v) expect

def expandT (xs : List V) (i : Int) (vs expect : List V) : Bool := growths.all fun g =>
  let (h, s, v) := two xs vs; got (expand h g.1 g.2 s i v) expect

def insertT (xs : List V) (i : Int) (v : V) (expect : List V) : Bool := growths.all fun g =>
  let (h, s, _) := two xs []; got (Slicex.insert h g.1 g.2 s i v) expect

def cutT (xs : List V) (i j : Int) (expect : List V) : Bool := growths.all fun g =>
  let (h, s, _) := two xs []; got (cut h g.1 g.2 s i j) expect

def deleteT (xs : List V) (i : Int) (expect : List V) : Bool := growths.all fun g =>
  let (h, s, _) := two xs []; got (delete h g.1 g.2 s i) expect

def pushT (xs : List V) (v : V) (expect : List V) : Bool := growths.all fun g =>
  let (h, s, _) := two xs []; got (push h g.1 g.2 s v) expect

def unShiftT (xs : List V) (v : V) (expect : List V) : Bool := growths.all fun g =>
  let (h, s, _) := two xs []; got (unShift h g.1 g.2 s v) expect

/-- The slice and the value a call leaves. -/
def got2 (o : Outcome ((Hp V × Sl) × V)) (expect : List V) (r : V) : Bool :=
  match o with
  | .ret ((h, s), v) => elems h s == expect && v == r
  | _ => false

def popT (xs expect : List V) (r : V) : Bool := growths.all fun g =>
  let (h, s, _) := two xs []; got2 (pop h g.1 g.2 s) expect r

def shiftT (xs expect : List V) (r : V) : Bool := growths.all fun g =>
  let (h, s, _) := two xs []; got2 (shift h g.1 g.2 s) expect r

def reverseT (xs expect : List V) : Bool :=
  let (h, s, _) := two xs []; got ((reverse h s).bind fun h => .ret (h, s)) expect

def rotateT (xs : List V) (n : Int) (expect : List V) : Bool := growths.all fun g =>
  let (h, s, _) := two xs []; got (rotate h g.1 s n) expect

def gots (h : Hp V) (o : Outcome (List Sl)) (expect : List (List V)) : Bool :=
  match o with
  | .ret ss => ss.map (elems h) == expect
  | _ => false

def splitT (xs : List V) (is : List Int) (expect : List (List V)) : Bool :=
  let (h, s, _) := two xs []; gots h (split s is) expect

def batchT (xs : List V) (n : Int) (expect : List (List V)) : Bool :=
  let (h, s, _) := two xs []; gots h (batch s n) expect

/-- slicex_test.go:13-16 `TestCopy`. -/
example : [
    copyT [],
    copyT [none],
    copyT [some 1, some 2, some 3],
    copyT [some 1, some 900, some 901, some 902, some 903]].all id = true := by decide +kernel

/-- slicex_test.go:31-37 `TestSetGet`. -/
example : [
    setGetT (1) [0] [some 1] [some 1],
    setGetT (3) [0, 1, 2] [some 1, some 2, some 3] [some 1, some 2, some 3],
    setGetT (5) [0, 1, 2, 3, 4] [some 1, some 900, some 901, some 902, some 903] [some 1, some 900, some 901, some 902, some 903],
    setGetT (10) [0, 2, 4, 6, 8] [some 1, some 2, some 3, some 4, some 5] [some 1, none, some 2, none, some 3, none, some 4, none, some 5, none],
    setGetT (4) [-1, 6] [some 1, some 2] [some 1, none, none, some 2]].all id = true := by decide +kernel

/-- slicex_test.go:60-79 `TestSlice`. -/
example : [
    sliceT [some 0, some 1, some 2] (0) (0) [],
    sliceT [some 0, some 1, some 2] (0) (1) [some 0],
    sliceT [some 0, some 1, some 2] (0) (2) [some 0, some 1],
    sliceT [some 0, some 1, some 2] (0) (3) [some 0, some 1, some 2],
    sliceT [some 0, some 1, some 2] (1) (3) [some 1, some 2],
    sliceT [some 0, some 1, some 2] (2) (3) [some 2],
    sliceT [some 0, some 1, some 2] (3) (3) [],
    sliceT [] (0) (1) [],
    sliceT [some 0, some 1, some 2] (0) (-1) [some 0, some 1],
    sliceT [some 0, some 1, some 2] (0) (-2) [some 0],
    sliceT [some 0, some 1, some 2] (1) (0) [some 0],
    sliceT [some 0, some 1, some 2] (0) (100) [some 0, some 1, some 2],
    sliceT [some 0, some 1, some 2] (-100) (3) [some 0, some 1, some 2],
    sliceT [some 0, some 1, some 2] (-100) (-1) [some 0, some 1],
    sliceT [some 0, some 1, some 2] (-100) (-3) []].all id = true := by decide +kernel

/-- slicex_test.go:95-113 `TestSplice`. -/
example : [
    spliceT [some 0, some 1, some 2] (0) (0) [] [some 0, some 1, some 2],
    spliceT [some 0, some 1, some 2] (0) (0) [] [some 0, some 1, some 2],
    spliceT [some 0, some 1, some 2] (0) (1) [some 3] [some 3, some 1, some 2],
    spliceT [some 0, some 1, some 2] (0) (2) [some 3, some 4] [some 3, some 4, some 2],
    spliceT [some 0, some 1, some 2] (0) (3) [some 3, some 4, some 5] [some 3, some 4, some 5],
    spliceT [some 0, some 1, some 2] (1) (1) [some 3] [some 0, some 3, some 1, some 2],
    spliceT [some 0, some 1, some 2] (1) (2) [some 3, some 4] [some 0, some 3, some 4, some 2],
    spliceT [some 0, some 1, some 2] (1) (3) [some 3, some 4, some 5] [some 0, some 3, some 4, some 5],
    spliceT [some 0, some 1, some 2] (2) (3) [some 4, some 5] [some 0, some 1, some 4, some 5],
    spliceT [some 0, some 1, some 2] (3) (3) [some 4] [some 0, some 1, some 2, some 4],
    spliceT [some 1, some 2, some 3] (0) (1) [] [some 2, some 3],
    spliceT [] (0) (1) [some 3, some 4, some 5] [some 3, some 4, some 5],
    spliceT [] (0) (1) [] [],
    spliceT [some 0, some 1, some 2] (1) (0) [some 3] [some 3, some 1, some 2],
    spliceT [some 0, some 1, some 2] (0) (100) [some 3, some 4, some 5] [some 3, some 4, some 5],
    spliceT [some 0, some 1, some 2] (-100) (3) [some 3, some 4, some 5] [some 3, some 4, some 5]].all id = true := by decide +kernel

/-- slicex_test.go:129-143 `TestExpand`. -/
example : [
    expandT [some 1, some 2, some 3] (0) [some 0] [some 0, some 1, some 2, some 3],
    expandT [some 1, some 2, some 3] (1) [some 0] [some 1, some 0, some 2, some 3],
    expandT [some 1, some 2, some 3] (2) [some 0] [some 1, some 2, some 0, some 3],
    expandT [some 1, some 2, some 3] (3) [some 0] [some 1, some 2, some 3, some 0],
    expandT [some 1, some 2, some 3] (0) [some 4, some 5, some 6] [some 4, some 5, some 6, some 1, some 2, some 3],
    expandT [some 1, some 2, some 3] (1) [some 4, some 5, some 6] [some 1, some 4, some 5, some 6, some 2, some 3],
    expandT [some 1, some 2, some 3] (2) [some 4, some 5, some 6] [some 1, some 2, some 4, some 5, some 6, some 3],
    expandT [some 1, some 2, some 3] (3) [some 4, some 5, some 6] [some 1, some 2, some 3, some 4, some 5, some 6],
    expandT [some 1, some 2, some 3] (3) [] [some 1, some 2, some 3],
    expandT [] (3) [some 4, some 5, some 6] [some 4, some 5, some 6],
    expandT [some 1, some 2, some 3] (-100) [some 0] [some 0, some 1, some 2, some 3],
    expandT [some 1, some 2, some 3] (100) [some 0] [some 1, some 2, some 3, some 0]].all id = true := by decide +kernel

/-- slicex_test.go:158-167 `TestInsert`. -/
example : [
    insertT [some 1, some 2, some 3] (0) (some 0) [some 0, some 1, some 2, some 3],
    insertT [some 1, some 2, some 3] (1) (some 0) [some 1, some 0, some 2, some 3],
    insertT [some 1, some 2, some 3] (2) (some 0) [some 1, some 2, some 0, some 3],
    insertT [some 1, some 2, some 3] (3) (some 0) [some 1, some 2, some 3, some 0],
    insertT [some 1, some 2, some 3] (3) (none) [some 1, some 2, some 3, none],
    insertT [some 1, some 2, some 3] (-100) (some 0) [some 0, some 1, some 2, some 3],
    insertT [some 1, some 2, some 3] (100) (some 0) [some 1, some 2, some 3, some 0]].all id = true := by decide +kernel

/-- slicex_test.go:182-198 `TestCut`. -/
example : [
    cutT [some 1, some 2, some 3] (0) (0) [some 1, some 2, some 3],
    cutT [some 1, some 2, some 3] (0) (1) [some 2, some 3],
    cutT [some 1, some 2, some 3] (0) (2) [some 3],
    cutT [some 1, some 2, some 3] (0) (3) [],
    cutT [some 1, some 2, some 3] (1) (1) [some 1, some 2, some 3],
    cutT [some 1, some 2, some 3] (1) (2) [some 1, some 3],
    cutT [some 1, some 2, some 3] (1) (3) [some 1],
    cutT [some 1, some 2, some 3] (2) (2) [some 1, some 2, some 3],
    cutT [some 1, some 2, some 3] (2) (3) [some 1, some 2],
    cutT [some 1, some 2, some 3] (3) (3) [some 1, some 2, some 3],
    cutT [] (0) (1) [],
    cutT [some 1, some 2, some 3] (1) (0) [some 2, some 3],
    cutT [some 1, some 2, some 3] (0) (100) [],
    cutT [some 1, some 2, some 3] (-100) (3) []].all id = true := by decide +kernel

/-- slicex_test.go:212-220 `TestDelete`. -/
example : [
    deleteT [some 1, some 2, some 3] (0) [some 2, some 3],
    deleteT [some 1, some 2, some 3] (1) [some 1, some 3],
    deleteT [some 1, some 2, some 3] (2) [some 1, some 2],
    deleteT [] (1) [],
    deleteT [some 1, some 2, some 3] (-100) [some 1, some 2, some 3],
    deleteT [some 1, some 2, some 3] (100) [some 1, some 2, some 3]].all id = true := by decide +kernel

/-- slicex_test.go:234-236 `TestPush`. -/
example : [
    pushT [some 1, some 2, some 3] (some 4) [some 1, some 2, some 3, some 4],
    pushT [] (some 4) [some 4],
    pushT [] (some 4) [some 4]].all id = true := by decide +kernel

/-- slicex_test.go:250-253 `TestPop`. -/
example : [
    popT [some 1, some 2, some 3] [some 1, some 2] (some 3),
    popT [some 1] [] (some 1),
    popT [] [] (none),
    popT [] [] (none)].all id = true := by decide +kernel

/-- slicex_test.go:269-271 `TestUnshift`. -/
example : [
    unShiftT [some 1, some 2, some 3] (some 4) [some 4, some 1, some 2, some 3],
    unShiftT [] (some 4) [some 4],
    unShiftT [] (some 4) [some 4]].all id = true := by decide +kernel

/-- slicex_test.go:285-288 `TestShift`. -/
example : [
    shiftT [some 1, some 2, some 3] [some 2, some 3] (some 1),
    shiftT [some 1] [] (some 1),
    shiftT [] [] (none),
    shiftT [] [] (none)].all id = true := by decide +kernel

/-- slicex_test.go:303-307 `TestReverse`. -/
example : [
    reverseT [some 1, some 2, some 3] [some 3, some 2, some 1],
    reverseT [some 1, some 2, some 3, some 4] [some 4, some 3, some 2, some 1],
    reverseT [some 1] [some 1],
    reverseT [] []].all id = true := by decide +kernel

/-- slicex_test.go:321-333 `TestRotate`. -/
example : [
    rotateT [some 1, some 2, some 3] (0) [some 1, some 2, some 3],
    rotateT [some 1, some 2, some 3] (1) [some 2, some 3, some 1],
    rotateT [some 1, some 2, some 3] (2) [some 3, some 1, some 2],
    rotateT [some 1, some 2, some 3] (3) [some 1, some 2, some 3],
    rotateT [some 1, some 2, some 3] (4) [some 2, some 3, some 1],
    rotateT [some 1, some 2, some 3] (-1) [some 3, some 1, some 2],
    rotateT [some 1, some 2, some 3] (-2) [some 2, some 3, some 1],
    rotateT [some 1, some 2, some 3] (-3) [some 1, some 2, some 3],
    rotateT [some 1, some 2, some 3] (-4) [some 3, some 1, some 2],
    rotateT [some 1] (1) [some 1],
    rotateT [] (1) []].all id = true := by decide +kernel

/-- slicex_test.go:347-370 `TestSplit`. -/
example : [
    splitT [some 1, some 2, some 3] [1] [[some 1], [some 2, some 3]],
    splitT [some 1, some 2, some 3] [2] [[some 1, some 2], [some 3]],
    splitT [some 1, some 2, some 3] [3] [[some 1, some 2, some 3]],
    splitT [some 1, some 2, some 3] [] [[some 1, some 2, some 3]],
    splitT [some 1, some 2, some 3] [0] [[], [some 1, some 2, some 3]],
    splitT [some 1, some 2, some 3] [0, 1] [[], [some 1], [some 2, some 3]],
    splitT [some 1, some 2, some 3] [1, 1] [[some 1], [some 2], [some 3]],
    splitT [some 1, some 2, some 3] [1, 2] [[some 1], [some 2, some 3]],
    splitT [some 1, some 2, some 3] [2] [[some 1, some 2], [some 3]],
    splitT [some 1, some 2, some 3] [3] [[some 1, some 2, some 3]],
    splitT [some 1, some 2, some 3] [1, 1, 1] [[some 1], [some 2], [some 3]],
    splitT [some 1, some 2, some 3] [1, -1] [[some 1], [some 1], [some 1, some 2, some 3]],
    splitT [some 1, some 2, some 3] [2, -2] [[some 1, some 2], [some 1, some 2], [some 1, some 2, some 3]],
    splitT [some 1, some 2, some 3] [3, -3] [[some 1, some 2, some 3], [some 1, some 2, some 3], [some 1, some 2, some 3]],
    splitT [some 1, some 2, some 3] [-100] [[], [some 1, some 2, some 3]],
    splitT [some 1, some 2, some 3] [100, -100] [[some 1, some 2, some 3], [some 1, some 2, some 3], [some 1, some 2, some 3]],
    splitT [some 1, some 2, some 3] [-100, 100, -100] [[], [some 1, some 2, some 3], [some 1, some 2, some 3], [some 1, some 2, some 3]]].all id = true := by decide +kernel

/-- slicex_test.go:388-397 `TestBatch`. -/
example : [
    batchT [some 1, some 2, some 3, some 4, some 5] (1) [[some 1], [some 2], [some 3], [some 4], [some 5]],
    batchT [some 1, some 2, some 3, some 4, some 5] (2) [[some 1, some 2], [some 3, some 4], [some 5]],
    batchT [some 1, some 2, some 3, some 4, some 5] (3) [[some 1, some 2, some 3], [some 4, some 5]],
    batchT [some 1, some 2, some 3, some 4, some 5] (4) [[some 1, some 2, some 3, some 4], [some 5]],
    batchT [some 1, some 2, some 3, some 4, some 5] (5) [[some 1, some 2, some 3, some 4, some 5]],
    batchT [some 1, some 2, some 3, some 4, some 5] (-1) [[some 1], [some 2], [some 3], [some 4], [some 5]],
    batchT [some 1, some 2, some 3, some 4, some 5] (0) [[some 1], [some 2], [some 3], [some 4], [some 5]],
    batchT [some 1, some 2, some 3, some 4, some 5] (100) [[some 1, some 2, some 3, some 4, some 5]]].all id = true := by decide +kernel

end Verif.RepoTests
