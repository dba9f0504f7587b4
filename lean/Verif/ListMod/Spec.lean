import Verif.ListMod.Model
import Verif.ListExact.Spec
/-!
# `Iterate` with callbacks that use the list, without a heap
-/
namespace Verif.ListMod
open Verif.Linked Verif.Linked.LList Verif.ListExact

variable {T σ : Type}

/-- The callback calls nothing that puts elements in. -/
inductive Removes : Prog σ T → Prop where
  | done (s : σ) (go : Bool) : Removes (.done s go)
  | remove (i : Int) (k : Res T → Prog σ T) : (∀ r, Removes (k r)) → Removes (.call (.remove i) k)
  | look (i : Int) (k : Res T → Prog σ T) : (∀ r, Removes (k r)) → Removes (.call (.at i) k)
  | iterate (g : List T → Bool) (k : Res T → Prog σ T) : (∀ r, Removes (k r)) → Removes (.call (.iterate g) k)
  | len (k : Res T → Prog σ T) : (∀ r, Removes (k r)) → Removes (.call .len k)

/-- Where the element is that the callback was given. -/
inductive Cur where
  /-- It is element number `p`. -/
  | on (p : Nat)
  /-- It was removed; the one that followed it is now number `q` (or there is none). -/
  | off (q : Nat)

/-- The same after something was put behind the node that was appended last, which cuts off all that followed it. -/
def Cur.behind (p : Nat) : Last → Option Cur
  | .at k => if p ≤ k then some (.on p) else none
  | _ => some (.on p)

/-- The same after a call. `none`: the call does what the loop cannot cope with. -/
def Cur.step (x : X T) : Cur → Op T → Option Cur
  | .on p, .append _ _ => match x.last with
    | .none => none
    | last => Cur.behind p last
  | .on p, .insert i _ _ =>
    if i ≠ 0 ∧ i = x.len + 1 then Cur.behind p x.last
    else if 0 ≤ i ∧ i ≤ x.elems.length then some (.on (if i ≤ p then p + 1 else p))
    else some (.on p)
  | .on p, .remove i =>
    if 0 ≤ i ∧ i < x.elems.length then
      if i = p then some (.off p) else some (.on (if i < p then p - 1 else p))
    else some (.on p)
  | .off _, .append _ _ => none
  | .off _, .insert _ _ _ => none
  | .off q, .remove i =>
    if 0 ≤ i ∧ i < x.elems.length then
      if i = q then none else some (.off (if i < q then q - 1 else q))
    else some (.off q)
  | c, _ => some c

/-- The number of the element that is next. -/
def Cur.next : Cur → Nat
  | .on p => p + 1
  | .off q => q

/-- What a callback does. -/
def specExec (x : X T) (c : Cur) : Prog σ T → Option (X T × Cur × σ × Bool)
  | .done s go => some (x, c, s, go)
  | .call op k => (c.step x op).bind fun c' => specExec (exactStep x op).1 c' (k (exactStep x op).2)

/-- What is there after some rounds. `pos = none`: the callback said stop. -/
structure SIt (σ T : Type) where
  x : X T
  pos : Option Nat
  state : σ
  log : List T

/-- One round: the element number `pos` is handed to the callback. -/
def specRound (f : σ → T → Prog σ T) (t : SIt σ T) : Option (SIt σ T) :=
  match t.pos.bind fun p => (t.x.elems[p]?).map fun v => (p, v) with
  | none => some t
  | some (p, v) =>
    (specExec t.x (.on p) (f t.state v)).map fun r =>
      ⟨r.1, if r.2.2.2 then some r.2.1.next else none, r.2.2.1, t.log ++ [v]⟩

/-- The first `n` rounds. -/
def specRounds (f : σ → T → Prog σ T) (t : SIt σ T) : Nat → Option (SIt σ T)
  | 0 => some t
  | n + 1 => (specRound f t).bind fun t => specRounds f t n

/-- Has it returned? -/
def SIt.ended (t : SIt σ T) : Prop := ∀ p, t.pos = some p → t.x.elems.length ≤ p

/-- The state of a list after a history. -/
def exactAfter (x : X T) : List (Op T) → X T
  | [] => x
  | op :: ops => exactAfter (exactStep x op).1 ops

/-- The callback that throws out: it counts the elements it keeps and removes the current one by its number. -/
def throwOut (P : T → Bool) (i : Nat) (v : T) : Prog Nat T :=
  if P v then .call (.remove i) fun _ => .done i true else .done (i + 1) true

/-- The elements of a list, as `Iterate` shows them. -/
def Shows [Inhabited T] (l : LL T) (vs : List T) : Prop := (step l (.iterate fun _ => true)).2 = .vals vs

/-- The callback never stops the loop. -/
def GoesOn [Inhabited T] (f : σ → T → Prog σ T) : Prop := ∀ (l : LL T) s v, (exec l (f s v)).2.2 = true

/-- The values the callback puts in are none of `vs`. -/
inductive AddsNew (vs : List T) : Prog σ T → Prop where
  | done (s : σ) (go : Bool) : AddsNew vs (.done s go)
  | append (v : T) (c : Option Nat) (k : Res T → Prog σ T) : v ∉ vs → (∀ r, AddsNew vs (k r)) → AddsNew vs (.call (.append v c) k)
  | insert (i : Int) (v : T) (c : Option Nat) (k : Res T → Prog σ T) : v ∉ vs → (∀ r, AddsNew vs (k r)) →
    AddsNew vs (.call (.insert i v c) k)
  | other (op : Op T) (k : Res T → Prog σ T) : (∀ v c, op ≠ .append v c) → (∀ i v c, op ≠ .insert i v c) →
    (∀ r, AddsNew vs (k r)) → AddsNew vs (.call op k)

/-- The full claim: when the loop is over, all elements that were there at the start and are still there were handed out. (The
elements are taken to be different from each other and from those the callback puts in, so that one can tell.) -/
def C105_full (T : Type) [Inhabited T] : Prop := ∀ (σ : Type) (pre : List (Op T)) (f : σ → T → Prog σ T) (s : σ) (n : Nat)
  (vs vs' : List T), Shows (after new pre) vs → vs.Nodup → (∀ s v, AddsNew vs (f s v)) → GoesOn f →
  (rounds f (after new pre) s n).cur = none → Shows (rounds f (after new pre) s n).list vs' →
  ∀ v ∈ vs, v ∈ vs' → v ∈ (rounds f (after new pre) s n).log

end Verif.ListMod
