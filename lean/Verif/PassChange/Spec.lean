import Verif.PassChange.Model
import Verif.SyncKey.Model
/-!
# Specification for C183: a password can be changed once
-/
namespace Verif.PassChange
open Verif.Conc Verif.PassHash Verif.UserStore
open Verif.SyncMap (Call Res)

variable {U : Type}

/-- The change goes through: it gets to storing the new password. -/
def Change.Done (h : List (Event (Call U Bytes) (Res U Bytes))) (a : Change) : Prop := ∃ c, .inv a.set c ∈ h

/-- The old password is no good for the record of the new one. -/
def Change.Fresh (K : Kdf) (req : Nat → Req U) (a : Change) (old : Bytes) : Prop :=
  ∀ u new level rnd, req a.set = .setPassword u new level rnd → ¬ SameKey K level rnd new old

/-- User `u` was given the password `old` by `p0` before everything else, and after that only `a` and `b` change it, both with `old` as the old password. -/
structure Two (K : Kdf) (req : Nat → Req U) (h : List (Event (Call U Bytes) (Res U Bytes))) (u : U) (old : Bytes) (p0 : Nat) (a b : Change) : Prop where
  first : ∃ level rnd, req p0 = .setPassword u old level rnd
  early : ∀ j c, j ≠ p0 → .inv j c ∈ h → ∃ r, Before h (.ret p0 r) (.inv j c)
  runsA : a.Runs K req h u old
  runsB : b.Runs K req h u old
  freshA : a.Fresh K req old
  freshB : b.Fresh K req old
  apart : a.set ≠ b.set ∧ a.set ≠ p0 ∧ b.set ≠ p0
  only : ∀ p, Changes u (req p) → p = p0 ∨ p = a.set ∨ p = b.set

/-- **C183 (full statement).** Of two changes that name the same old password only one goes through. -/
def C183_full : Prop := ∀ (K : Kdf), (∀ p s t m th l, (K p s t m th l).length = l) → ∀ (req : Nat → Req Nat), Fills req →
  ∀ s : SyncKey.St Nat Bytes, RW.Reach (SyncKey.syncmap fun a b => decide (a = b)) s → Serves K req s.hist →
  ∀ u old p0 a b, Two K req s.hist u old p0 a b → ¬ (a.Done s.hist ∧ b.Done s.hist)

/-- At the start: goroutine 0 is to store the first record, some others are to change the password from `old` to ones for whose records `old` is no good. -/
def Begin (K : Kdf) (old : Bytes) (l : Nat → Loc) : Prop :=
  (∃ r, l 0 = .give r) ∧ ∀ t, t ≠ 0 → l t = .no ∨ ∃ new level rnd, l t = .ask old new level rnd ∧ (rnd 16).1.length = 16 ∧ ¬ SameKey K level rnd new old

end Verif.PassChange
