import Verif.Diff.Model
/-!
# Model of `timex/timex.go` and of the timer of `SleepUntil` (`timex/sleepx/sleepx.go`)

Over the `time` package of Go 1.19 (`Unix`, `Sub`), as in `Verif.Trunc.Model` and `Verif.Diff.Model`. `UTC()` changes the
location of a time only and is left out.
-/
namespace Verif.SleepUntil
open Verif.Go
open Verif.Diff (Reading sub)
open Verif.Trunc (unixToInternal)

/-- timex.go:9-11 `Custom`; time.go `Unix`, `unixTime`. -/
def custom (sec nsec : Int) : Reading :=
  if nsec < 0 ∨ nsec ≥ 1000000000 then
    let n := nsec.tdiv 1000000000
    let sec := wrap64 (sec + n)
    let nsec := nsec - n * 1000000000
    if nsec < 0 then ⟨wrap64 (wrap64 (sec - 1) + unixToInternal), nsec + 1000000000, none⟩
    else ⟨wrap64 (sec + unixToInternal), nsec, none⟩
  else ⟨wrap64 (sec + unixToInternal), nsec, none⟩

/-- sleepx.go:53: what `SleepUntil(t)` arms its timer with when the clock reads `now`. -/
def timer (t now : Reading) : Int := sub t now

end Verif.SleepUntil
