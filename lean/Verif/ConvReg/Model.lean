import Verif.Prelude
import Verif.Go.Basic
/-!
# Model of `typex/convx/convx.go`: the registry of converters

Go types are the elements of a type `Ty`; a type is concrete or an interface. Converters are total functions of values;
they do not use the registry. Each function holds the lock throughout (`Into` shares it with other readers, which change
nothing), so a concurrent history is some sequential one.
-/
namespace Verif.ConvReg
open Verif.Go

/-- The types and values of a program. `Dyn`: the values of concrete types; `dyn` is the type of such a value. -/
structure Univ where
  Ty : Type
  [dec : DecidableEq Ty]
  iface : Ty → Bool
  Dyn : Type
  dyn : Dyn → Ty
  dyn_concrete : ∀ v, iface (dyn v) = false
  zero : ∀ T, iface T = false → Dyn
  zero_dyn : ∀ T h, dyn (zero T h) = T

attribute [instance] Univ.dec

variable {U : Univ}

/-- A value of any static type; `none`: the nil value of an interface type. -/
abbrev Value (U : Univ) := Option U.Dyn

/-- `reflect.TypeOf` of an interface value made from a value; `none`: nil. -/
def typeOf (v : Value U) : Option U.Ty := v.map U.dyn

/-- `*new(T)`: the zero value. -/
def zeroOf (U : Univ) (T : U.Ty) : Value U := if h : U.iface T = false then some (U.zero T h) else none

/-- A stored converter: an `any` that holds a `func(src) dst`; `fn = none`: the nil function. -/
structure Entry (U : Univ) where
  src : U.Ty
  dst : U.Ty
  fn : Option (Value U → Value U)

/-- convx.go:8. A map from types to maps; `none`: no entry (reading gives the nil map). -/
abbrev Reg (U : Univ) := Option U.Ty → Option (Option U.Ty → Option (Entry U))

/-- convx.go:8. -/
def empty : Reg U := fun _ => none

/-- convx.go:11-18. -/
def register (T R : U.Ty) (f : Option (Value U → Value U)) (c : Reg U) : Reg U :=
  let c1 : Reg U := match c (typeOf (zeroOf U T)) with
    | none => fun k => if k = typeOf (zeroOf U T) then some (fun _ => none) else c k
    | some _ => c
  match c1 (typeOf (zeroOf U T)) with
  | none => c1  -- not reached: writing to a nil map
  | some m => fun k => if k = typeOf (zeroOf U T) then
      some (fun k' => if k' = typeOf (zeroOf U R) then some ⟨T, R, f⟩ else m k') else c1 k

/-- convx.go:20-28. -/
def unregister (T R : U.Ty) (c : Reg U) : Reg U :=
  match c (typeOf (zeroOf U T)) with
  | none => c
  | some m => fun k => if k = typeOf (zeroOf U T) then
      some (fun k' => if k' = typeOf (zeroOf U R) then none else m k') else c k

/-- convx.go:30-39. -/
def exists' (T R : U.Ty) (c : Reg U) : Bool :=
  match c (typeOf (zeroOf U T)) with
  | none => false
  | some m => (m (typeOf (zeroOf U R))).isSome

/-- convx.go:41-59. `rs` is the zero value of `R` until line 56. Calling a nil function panics. -/
def into (T R : U.Ty) (value : Value U) (c : Reg U) : Outcome (Value U × Bool) :=
  match c (typeOf value) with
  | none => .ret (zeroOf U R, false)
  | some m =>
    match m (typeOf (zeroOf U R)) with
    | none => .ret (zeroOf U R, false)
    | some e =>
      if e.src = T ∧ e.dst = R then
        match e.fn with
        | none => .panic
        | some f => .ret (f value, true)
      else .ret (zeroOf U R, false)

/-- convx.go:61-67. -/
def intoOr (T R : U.Ty) (value or : Value U) (c : Reg U) : Outcome (Value U) :=
  match into T R value c with
  | .ret (rs, ok) => .ret (if ok then rs else or)
  | .panic => .panic
  | .hang => .hang

/-- A history of changes of the registry, in order; those of `init` (init.go) come first. -/
inductive Op (U : Univ) where
  | reg (T R : U.Ty) (f : Option (Value U → Value U))
  | unreg (T R : U.Ty)

def Op.apply (c : Reg U) : Op U → Reg U
  | .reg T R f => register T R f c
  | .unreg T R => unregister T R c

def run (h : List (Op U)) : Reg U := h.foldl Op.apply empty

end Verif.ConvReg
