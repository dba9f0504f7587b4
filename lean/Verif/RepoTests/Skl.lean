import Verif.Skl.Props
import Verif.Go.Str

/-! dsx/mapx/sklmapx/sklmapx_test.go, run on the model of the skip-list map: tests of the model, not
proofs of any claim. The theorems C01–C08 apply to maps keyed by strings (`Verif.Go.Str`). -/
namespace Verif.RepoTests
open Verif.Go Verif.Skl

/-- `Set` a list of keys, each to itself. -/
def setAll (w : World Str Str) (ks : List (String × String)) : Outcome (World Str Str) :=
  ks.foldl (fun o kv => o.bind fun w => Skl.set w (str kv.1) (str kv.2)) (.ret w)

def delAll (w : World Str Str) (ks : List String) : Outcome (World Str Str) :=
  ks.foldl (fun o k => o.bind fun w => (Skl.del w (str k)).map (·.1)) (.ret w)

def isRet {α : Type} (o : Outcome α) (p : α → Bool) : Bool :=
  match o with
  | .ret a => p a
  | _ => false

/-- What `Next` gives on an iterator: the entry and the iterator after it. -/
def nextIs (w : World Str Str) (it : Iter) (e : Option (String × String)) (k : Iter → Bool) : Bool :=
  isRet (Skl.next w it) fun r => r.2 == e.map (fun kv => (str kv.1, str kv.2)) && k r.1

def seekTo (w : World Str Str) (it : Iter) (key : String) (k : Iter → Bool) : Bool :=
  isRet (Skl.seek w it (str key)) fun r => k r.1

/-- sklmapx_test.go:73-92, 131-149: `ToMap`, `Keys` and `Values` with `d`, `e`, `f` in the map. -/
def restTest (w : World Str Str) : Bool :=
  isRet (Skl.toMap w) (fun m => (["d", "e", "f"].all fun k => m (str k) == some (str k)) && m (str "g") == none) &&
  isRet (Skl.keys w) (· == [str "d", str "e", str "f"]) && isRet (Skl.values w) (· == [str "d", str "e", str "f"])

/-- sklmapx_test.go:94-129: two iterators on the map, used in turns. -/
def iterTest (w : World Str Str) : Bool :=
  nextIs w iterator (some ("d", "d")) fun i0 => nextIs w i0 (some ("e", "e")) fun i0 =>
  nextIs w iterator (some ("d", "d")) fun i1 => nextIs w i0 (some ("f", "f")) fun i0 =>
  nextIs w i1 (some ("e", "e")) fun i1 => nextIs w i0 none fun _ =>
  nextIs w i1 (some ("f", "f")) fun i1 => nextIs w i1 none fun _ => true

/-- One entry as `fmt` prints it with `%v:%v`. -/
def fmtKV (k v : Str) : String :=
  String.ofList (k.bytes.map fun b => Char.ofNat b.toNat) ++ ":" ++ String.ofList (v.bytes.map fun b => Char.ofNat b.toNat)

/-- sklmapx_test.go:173-228: `String`, `Seek`, `Rewind` and a loop over the entries. -/
def seekTest (w : World Str Str) : Bool :=
  isRet (toStr fmtKV w) (· == "sklmapx[]") &&
  isRet (setAll w [("abcde", "12345"), ("abc", "123"), ("ab", "12"), ("a", "1")]) fun w =>
    isRet (toStr fmtKV w) (· == "sklmapx[a:1 ab:12 abc:123 abcde:12345]") &&
    (seekTo w iterator "ab" fun i => nextIs w i (some ("abc", "123")) fun i => nextIs w i (some ("abcde", "12345")) fun i =>
      seekTo w i "a" fun i => nextIs w i (some ("ab", "12")) fun i =>
      isRet (drain w 100 (rewind i)) fun es =>
        isRet (Skl.keys w) (· == es.map (·.1)) && es.length == Skl.len w)

/-- sklmapx_test.go:10-229, with the seed that `New` got and the seed that `Clear` got. -/
def mapTest (seed seed' : BitVec 64) : Bool :=
  isRet (setAll (Skl.new seed) [("b", "b"), ("f", "f"), ("d", "d"), ("c", "c"), ("a", "a"), ("e", "e")]) fun w =>
    (["a", "b", "c", "d", "e", "f"].all fun k => isRet (Skl.get w (str k)) (· == some (str k))) &&
    isRet (Skl.get w (str "g")) (· == none) &&
    isRet (delAll w ["a", "b", "g", "c"]) fun w =>
      (["a", "b", "c", "g"].all fun k => isRet (Skl.get w (str k)) (· == none)) &&
      restTest w && iterTest w &&
      (let w := Skl.clear w seed'
       (["d", "e", "f", "g"].all fun k => isRet (Skl.get w (str k)) (· == none)) && isRet (Skl.keys w) (·.isEmpty) &&
       seekTest w)

set_option maxRecDepth 10000 in
example : ([0, 1, 42, 0xdeadbeef].all fun s => mapTest s (s * 7 + 1)) = true := by decide +kernel

end Verif.RepoTests
