import Verif.ConvReg.Props
import Verif.Conc.RW
/-!
# Model of `typex/convx/convx.go` in concurrent use

The functions on the registry are those of `Verif.ConvReg`; here any goroutines call them at any time, each behind the lock that it takes. A converter that `Into` calls
works for any number of steps of its own, with the read lock held. The types are concrete ones, and converters do not use the registry (those that do: C90).
-/
namespace Verif.ConvServe
open Verif.Go Verif.Conc Verif.ConvReg

/-- The concrete types. -/
abbrev CTy (U : Univ) := {T : U.Ty // U.iface T = false}

/-- The calls. The source type of a conversion is the type of the value. -/
inductive Call (U : Univ) where
  | register (T R : CTy U) (f : Option (Value U → Value U))
  | unregister (T R : CTy U)
  | found (T R : CTy U)
  | into (v : U.Dyn) (R : CTy U)
  | intoOr (v : U.Dyn) (R : CTy U) (or : Value U)

/-- What they return. A converter may panic. -/
inductive Res (U : Univ) where
  | unit
  | bool (b : Bool)
  | conv (x : Outcome (Value U × Bool))
  | val (x : Outcome (Value U))

variable {U : Univ} (work : Entry U → Value U → Nat)

/-- The steps of the converter that convx.go:56 calls; 0 when none is called (:45, :49, :53). -/
def todo (m : Reg U) : Call U → Nat
  | .into v R | .intoOr v R _ =>
    match m (typeOf (some v)) with
    | none => 0
    | some x =>
      match x (typeOf (zeroOf U R.1)) with
      | none => 0
      | some e => if e.src = U.dyn v ∧ e.dst = R.1 then work e (some v) else 0
  | _ => 0

/-- The end of a call: what it returns and leaves. -/
def fin (m : Reg U) (c : Call U) (r : Res U) (m' : Reg U) : Prop :=
  match c with
  | .register T R f => r = .unit ∧ m' = register T.1 R.1 f m              -- convx.go:14-17
  | .unregister T R => r = .unit ∧ m' = unregister T.1 R.1 m              -- convx.go:23-27
  | .found T R => r = .bool (exists' T.1 R.1 m) ∧ m' = m                  -- convx.go:33-38
  | .into v R => r = .conv (into (U.dyn v) R.1 (some v) m) ∧ m' = m       -- convx.go:44-58
  | .intoOr v R or => r = .val (intoOr (U.dyn v) R.1 (some v) or m) ∧ m' = m  -- convx.go:62-66

/-- convx.go:8-67, on a registry with the history `h0` (that of init.go). -/
def registry (h0 : List (Op U)) : RW.Guarded (Reg U) Nat (Call U) (Res U) where
  init := run h0
  writes
    | .register .. => true
    | .unregister .. => true
    | _ => false
  start := 0
  iter m c i j := i < todo work m c ∧ j = i + 1
  fin m c i r m' := i = todo work m c ∧ fin m c r m'

end Verif.ConvServe
