import Verif.KillClose.Model
/-!
# What one expects of closing on a kill signal
-/
namespace Verif.KillClose

/-- **C157 as one would have it**: when the channel that `HandleKillSig` returned is closed, every closer whose `Append` has returned
has been closed exactly once. -/
def C157_full : Prop := ∀ s, Reach s → s.cClosed = true → ∀ j, s.add j = .returned → s.closes j = 1

/-- No signal has been received yet. -/
def Quiet (s : St) : Prop := s.taken = 0

end Verif.KillClose
