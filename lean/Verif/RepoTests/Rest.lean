import Verif.Linked.Props
import Verif.Ring.Props
import Verif.SliceC.Props
import Verif.Inter.Props
import Verif.Decouple.Props

/-! The other unit tests of the repository, run on the models: tests of the models, not proofs of any
claim. -/
namespace Verif.RepoTests
open Verif.Go

/-- dsx/linkedx/listx/listx_test.go:9-36 `TestListX`; `c` is what `pool.Get` does. -/
def listOps (c : Option Nat) : List (Linked.LList.Op Int) :=
  ((List.range 100).map fun (i : Nat) => .append (i : Int) c) ++
  ((List.range 10).map fun (i : Nat) => .insert (i : Int) (i : Int) c) ++
  ((List.range 10).map fun (i : Nat) => .at (i : Int)) ++
  ((List.range 10).map fun (i : Nat) => .at ((i : Int) + 10)) ++
  ((List.range 10).map fun (i : Nat) => .remove (19 - 2 * (i : Int))) ++
  ((List.range 10).map fun (i : Nat) => .at (i : Int))

/-- The values that `At` and `Remove` are expected to give: `At(i)` after the inserts, the odd positions,
`At(i)` after the removals. -/
def listExpect : List Int :=
  [0, 1, 2, 3, 4, 5, 6, 7, 8, 9] ++ [0, 1, 2, 3, 4, 5, 6, 7, 8, 9] ++ [9, 7, 5, 3, 1, 9, 7, 5, 3, 1] ++
  [0, 2, 4, 6, 8, 0, 2, 4, 6, 8]

def isUnit : Linked.Res Int → Bool
  | .unit => true
  | _ => false

def isVal : Linked.Res Int → Int → Bool
  | .val a, b => a == b
  | _, _ => false

example : ([none, some 0].all fun c =>
    let r := Linked.LList.run Linked.LList.new (listOps c)
    (r.take 110).all isUnit && ((r.drop 110).zip listExpect).all (fun p => isVal p.1 p.2) &&
      (r.drop 110).length == listExpect.length) = true := by decide +kernel

/-- dsx/linkedx/dequex/dequex_test.go:9-32 `TestDeque` with `n` in place of 1000. -/
def dequeOps (n : Nat) (c : Option Nat) : List (Linked.Deque.Op Int) :=
  (List.range n).flatMap (fun (i : Nat) => [.pushFront (i : Int) c, .pushBack (i : Int) c]) ++
  (List.range n).flatMap fun _ => [.popFront, .popBack]

def dequeTest (n : Nat) (c : Option Nat) : Bool :=
  let r := Linked.Deque.run Linked.Deque.new (dequeOps n c)
  (r.take (2 * n)).all isUnit && (r.drop (2 * n)).length == 2 * n &&
    ((r.drop (2 * n)).zip ((List.range n).flatMap fun (i : Nat) => [(n : Int) - 1 - i, (n : Int) - 1 - i])).all fun p =>
      isVal p.1 p.2

/-- The test empties the deque with its last call, which is past what `C15_partial` covers, and does
not use it afterwards, which is where `C15_refuted` starts. -/
example : (dequeTest 150 none && dequeTest 150 (some 0)) = true := by decide +kernel

/-- dsx/slicex/queuex/queuex_test.go:9-33 `TestEnqueueDequeue`: the queue is filled once and emptied. -/
def ringTest (xs : List Int) : Bool :=
  match (Ring.new xs.length : Outcome (Option (Ring.Ring Int))) with
  | .ret (some r) =>
    (Ring.run r (xs.map .enqueue ++ List.replicate (xs.length + 1) .dequeue)).drop xs.length ==
      xs.map .val ++ [.none]
  | _ => false

example : ([[1], [1, 2], [1, 2, 3]].all ringTest) = true := by decide +kernel

/-- dsx/slicex/stackx/stackx_test.go:9-33 `TestPushPop`; `g` is the extra room of `append`. -/
def stackTest (g : Nat) (xs : List Int) : Bool :=
  (SliceC.stackRun (SliceC.newStack ⟨fun _ _ => 0, 0⟩) (xs.map (.push · g) ++ List.replicate (xs.length + 1) .pop)).drop
    xs.length == xs.reverse.map .val ++ [.none]

example : ([0, 1, 4].all fun g => [[1], [1, 2], [1, 2, 3]].all (stackTest g)) = true := by decide +kernel

/-- timex/intersectionx/intersectionx_test.go:9-109 `TestIntersection`. -/
example : Inter.run [⟨0, 10⟩] = (-10, 10, true) ∧ Inter.run [⟨0, 10⟩, ⟨0, 10⟩] = (-10, 10, true) ∧
    Inter.run [⟨0, 10⟩, ⟨2, 5⟩] = (-3, 7, true) ∧ Inter.run [⟨5, 10⟩, ⟨2, 5⟩, ⟨3, 6⟩] = (-3, 7, true) := by decide +kernel

open Verif.Decouple in
/-- iox/decouplex/decouple_test.go:29-62 `TestDrop2` (`drain` is 24-27) with the payloads `"hello"` and
`"world"` shortened to `[1]` and `[2]`. The third batch of writes drops twice, which is one whole round of
the two slots; with one drop in its place the next `Next` waits for ever (`C58_refuted_hang`). -/
example : ∃ d : Dec Nat, Run 2 [.write [1] (.accepted 1), .write [2] (.accepted 1), .next (.shown [1]), .next (.shown [2]), .next .none, .write [2] (.accepted 1), .next (.shown [2]), .next .none, .write [1] (.accepted 1), .write [2] (.accepted 1), .write [2] .dropped, .write [2] .dropped, .next (.shown [1]), .next (.shown [2]), .next .none, .write [1] (.accepted 1), .write [2] (.accepted 1)] d := by
  have r1 := Run.write (size := 2) (b := [1]) .init (accept_now (ts := 0) (i := 0) (by decide) (by decide) rfl rfl (by decide)) (by simp)
  have r2 := r1.write (b := [2]) (accept_now (ts := 1) (i := 1) (by decide) (by decide) rfl rfl (by decide)) (by simp)
  have r3 := r2.shown (show_now (i := 0) (by decide) (by decide) rfl (by decide))
  have r4 := r3.shown (show_now (i := 1) (by decide) (by decide) rfl (by decide))
  have r5 := r4.none (by unfold next; rw [if_pos (by decide)])
  have r6 := r5.write (b := [2]) (accept_now (ts := 2) (i := 0) (by decide) (by decide) rfl rfl (by decide)) (by simp)
  have r7 := r6.shown (show_now (i := 0) (by decide) (by decide) rfl (by decide))
  have r8 := r7.none (by unfold next; rw [if_pos (by decide)])
  have r9 := r8.write (b := [1]) (accept_now (ts := 3) (i := 1) (by decide) (by decide) rfl rfl (by decide)) (by simp)
  have r10 := r9.write (b := [2]) (accept_now (ts := 4) (i := 0) (by decide) (by decide) rfl rfl (by decide)) (by simp)
  have r11 := r10.write (b := [2]) (drop_now (ts := 5) (i := 1) (by decide) (by decide) rfl rfl (by decide) (by decide)) (by simp)
  have r12 := r11.write (b := [2]) (drop_now (ts := 6) (i := 0) (by decide) (by decide) rfl rfl (by decide) (by decide)) (by simp)
  have r13 := r12.shown (show_now (i := 1) (by decide) (by decide) rfl (by decide))
  have r14 := r13.shown (show_now (i := 0) (by decide) (by decide) rfl (by decide))
  have r15 := r14.none (by unfold next; rw [if_pos (by decide)])
  have r16 := r15.write (b := [1]) (accept_now (ts := 7) (i := 1) (by decide) (by decide) rfl rfl (by decide)) (by simp)
  have r17 := r16.write (b := [2]) (accept_now (ts := 8) (i := 0) (by decide) (by decide) rfl rfl (by decide)) (by simp)
  exact ⟨_, r17⟩

open Verif.Decouple in
/-- iox/decouplex/decouple_test.go:10-22 `TestDrop1`. -/
example : ∃ d : Dec Nat, Run 1 [.write [1] (.accepted 1), .write [2] .dropped] d := by
  have r1 := Run.write (size := 1) (b := [1]) .init (accept_now (ts := 0) (i := 0) (by decide) (by decide) rfl rfl (by decide)) (by simp)
  have r2 := r1.write (b := [2]) (drop_now (ts := 1) (i := 0) (by decide) (by decide) rfl rfl (by decide) (by decide)) (by simp)
  exact ⟨_, r2⟩

end Verif.RepoTests
