import Verif.ClosePanic.Model
import Verif.Go.Basic
/-!
# Model of `iox/managerx/closex/types.go` with Go's errors package

What Go's `errors.Is` and `errors.As` (Go 1.20 and later) find in the error that `CloseManager.Close` returns. An
`ErrorList` (types.go:9) has no `Unwrap` and no `Is` method, and as a slice it is not comparable. Every other error is
comparable; it may have an `Is` method and may wrap any number of errors (`fmt.Errorf` with `%w`, `errors.Join`).
`As` methods are left out.
-/
namespace Verif.CloseFind

/-- An error: an `ErrorList`, or an error with an identity, an `Is` method (for comparable targets) and the errors it
wraps. -/
inductive Err where
  | list (es : List Err)
  | node (id : Nat) (is : Nat → Bool) (kids : List Err)

mutual
/-- `errors.Is(e, target)` for a comparable target with identity `t`. Comparing an `ErrorList` with it is false, since
the types differ. -/
def isErr (t : Nat) : Err → Bool
  | .list _ => false
  | .node id m kids => id == t || m t || isAny t kids

/-- `errors.Is` on the wrapped errors, one after the other. -/
def isAny (t : Nat) : List Err → Bool
  | [] => false
  | e :: es => isErr t e || isAny t es
end

mutual
/-- `errors.As(e, &list)` in types.go:24-27. -/
def asList : Err → Option (List Err)
  | .list es => some es
  | .node _ _ kids => asAny kids

/-- `errors.As` on the wrapped errors: the first one that has a list. -/
def asAny : List Err → Option (List Err)
  | [] => none
  | e :: es => match asList e with
    | some r => some r
    | none => asAny es
end

/-- types.go:23-30 `AsErrs`: `(nil, false)` is `none`. -/
def asErrs : Option Err → Option (List Err)
  | none => none
  | some e => asList e

/-- `==` on two errors. Comparing two slices in interfaces panics. -/
def goEq : Err → Err → Go.Outcome Bool
  | .list _, .list _ => .panic
  | .node i _ _, .node j _ _ => .ret (i == j)
  | _, _ => .ret false

end Verif.CloseFind
