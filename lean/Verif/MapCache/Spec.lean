import Verif.MapCache.Model
import Verif.SyncKey.Model
/-!
# What a cache has to do
-/
namespace Verif.MapCache
open Verif.Conc Verif.Conc.RW Verif.SyncMap Verif.SyncAny Verif.SyncKey

variable {K V : Type}

/-- The keys asked for. -/
def looks (rs : List (Req K)) : List K := rs.filterMap (fun r => match r with | .look k => some k | _ => none)

/-- Nothing is ever dropped. -/
def Keeps (rs : List (Req K)) : Prop := ∀ r ∈ rs, ∃ k, r = .look k

/-- Keys that are `==` have the same value. -/
def Respects (eq : K → K → Bool) (f : K → V) : Prop := ∀ a b, eq a b = true → f a = f b

/-- A value that is right, or the zero value. -/
def RightOrZero [Inhabited V] (f : K → V) (k : K) (v : V) : Prop := v = f k ∨ v = default

/-- **C167 (full statement).** Whatever is dropped meanwhile, the values the cache returns are those of `f`, in the order of the requests. -/
def C167_full : Prop := ∀ (K V : Type) [Inhabited V] (eq : K → K → Bool) (f : K → V) (prog : Nat → List (Req K)),
  PartialEq eq → Respects eq f → ∀ s : CSt _ (List (K × V)) _ _ (Loc K V), CReach (syncmap eq) (cache f) (fun t => fresh (prog t)) s →
  ∀ t, (s.loc t).res <+: (looks (prog t)).map f

end Verif.MapCache
