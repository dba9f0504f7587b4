import Verif.WorkMap.Spec
import Mathlib.Tactic.Abel
/-!
# Lemmas for C173
-/
set_option linter.unusedSectionVars false
namespace Verif.WorkMap
open Verif.Conc Verif.Conc.RW Verif.SyncAny Relation

variable {K V : Type} [Inhabited K] [Inhabited V] {h : Go.Hp K} {eq : K → K → Bool} {f : K → V}

/-- The two objects without memory: a stack, and the history of the calls that change the map. -/
@[reducible] def Ideal (K V : Type) : Which → Type
  | .jobs => List K
  | .results => List (Op K V)

def ideal (eq : K → K → Bool) : ∀ i, Obj (Ideal K V i) (Call K V i) (Res K V i)
  | .jobs => HandOut.lifo K
  | .results => SyncKey.histObj eq

/-- Memory and ideal objects agree. -/
def Agree (eq : K → K → Bool) : ∀ i, Mem K V i → Ideal K V i → Prop
  | .jobs => fun x l => SliceC.Rep x l.reverse
  | .results => fun m hist => m = run eq hist

theorem readsOnly : ∀ i, ReadsOnly (objects (V := V) h eq i)
  | .jobs => HandOut.behind_reads
  | .results => SyncKey.readsOnly

theorem live : ∀ i, Live (objects (V := V) h eq i)
  | .jobs => HandOut.behind_live fun _ _ => ⟨_, _, ⟨none, 0⟩, _, rfl, rfl⟩
  | .results => SyncKey.live

def bound : ∀ i, Mem K V i → Call K V i → Loc K V i → Nat
  | .jobs => fun _ _ _ => 0
  | .results => fun m _ acc => m.length - acc.length

theorem shrinks : ∀ i, ShrinksFrom (objects (V := V) h eq i) (bound i)
  | .jobs => fun _ _ _ _ _ st => HandOut.behind_shrinks _ _ _ _ st
  | .results => fun _ _ _ _ _ st => SyncKey.shrinks _ _ _ _ st

theorem sim (pe : PartialEq eq) : ∀ i (s s' : Mem K V i) c x u, Agree eq i s u → (seqObj (objects (V := V) h eq i)).step s c x s' →
    ∃ u', (ideal eq i).step u c x u' ∧ Agree eq i s' u'
  | .jobs => fun s s' c x u ag st => HandOut.slice_sim s s' c x u ag st
  | .results => fun s s' c x u ag st => by
    have e : s = run eq u := ag
    subst e
    exact SyncKey.sim_step pe u c x s' st

theorem sim_family (pe : PartialEq eq) (m m' : ∀ i, Mem K V i) (c : Σ i, Call K V i) (x : Σ i, Res K V i) (u : ∀ i, Ideal K V i) (hm : ∀ i, Agree eq i (m i) (u i))
    (st : (Many.family fun i => seqObj (objects (V := V) h eq i)).step m c x m') : ∃ u', (Many.family (ideal eq)).step u c x u' ∧ ∀ i, Agree eq i (m' i) (u' i) :=
  Many.family_sim (Agree eq) (sim pe) m m' c x u hm st

theorem init_agree : ∀ i, Agree eq i (objects (V := V) h eq i).init (ideal (V := V) eq i).init
  | .jobs => SliceC.newStack_rep h
  | .results => rfl

/-! ## Whole calls -/

/-- What a goroutine has in hand. -/
def Worker.own : Worker K → Multiset K
  | .feed ks => ks
  | .store k => {k}
  | .stop => 0

/-- The calls that are left, when every job in the stack counts for 3. -/
def Worker.weight : Worker K → Nat
  | .feed ks => 4 * ks.length + 1
  | .store _ => 2
  | .stop => 0

/-- What one whole call does to the stack, the map and the local state. -/
inductive Does (f : K → V) : List K → List (Op K V) → Worker K → List K → List (Op K V) → Worker K → Prop where
  | push {x hist k ks} : Does f x hist (.feed (k :: ks)) (k :: x) hist (.feed ks)
  | pop {x hist k} : Does f (k :: x) hist (.feed []) x hist (.store k)
  | none {hist} : Does f [] hist (.feed []) [] hist .stop
  | store {x hist k} : Does f x hist (.store k) x (hist ++ [.set k (f k)]) (.feed [])

theorem Does.goes {x x' : List K} {hist hist' : List (Op K V)} {q q' : Worker K} (hd : Does f x hist q x' hist' q') : q ≠ .stop := by
  cases hd <;> nofun

theorem does {t : Nat} {a b : (∀ i, Ideal K V i) × (Nat → Worker K)} (st : AStep (Many.family (ideal eq)) (worker f) t a b) :
    ∃ q, Does f (a.1 .jobs) (a.1 .results) (a.2 t) (b.1 .jobs) (b.1 .results) q ∧ b.2 = setLoc a.2 t q := by
  cases st with
  | @mk m l c r m' hc hst =>
    simp only
    refine ⟨_, ?_, rfl⟩
    generalize l t = q at hc ⊢
    obtain ⟨y, rfl, h1, h2⟩ := hst
    match q with
    | .feed (k :: ks) =>
      cases hc
      obtain ⟨rfl, e⟩ := h1
      simp only [worker]
      rw [h2 .results (by simp), show m' .jobs = k :: m .jobs from e]
      exact .push
    | .feed [] =>
      cases hc
      have e3 := h2 .results (by simp)
      rw [e3]
      rcases h1 with ⟨rfl, e1, e2⟩ | ⟨k, rfl, e1⟩
      · simp only [worker]
        rw [show m .jobs = [] from e1, show m' .jobs = [] from e2]
        exact .none
      · simp only [worker]
        rw [show m .jobs = k :: m' .jobs from e1]
        exact .pop
    | .store k =>
      cases hc
      obtain ⟨rfl, e⟩ := h1
      simp only [worker]
      rw [h2 .jobs (by simp), show m' .results = m .results ++ [.set k (f k)] from e]
      exact .store
    | .stop => cases hc

/-- The books: every job is in the map, in the stack or in somebody's hands; and while there is something in the stack somebody works. -/
structure Books (f : K → V) (N : Nat) (all : Multiset K) (x : List K) (hist : List (Op K V)) (l : Nat → Worker K) : Prop where
  jobs : ∃ js, Stored f hist js ∧ js + (x : Multiset K) + ∑ t ∈ Finset.range N, (l t).own = all
  busy : x ≠ [] → ∃ t, l t ≠ .stop

theorem sum_set {M : Type} [AddCommMonoid M] (w : Worker K → M) (l : Nat → Worker K) (t : Nat) (q : Worker K) {N : Nat} (h : t < N) :
    ∑ u ∈ Finset.range N, w (setLoc l t q u) = w q + ∑ u ∈ (Finset.range N).erase t, w (l u) ∧
    ∑ u ∈ Finset.range N, w (l u) = w (l t) + ∑ u ∈ (Finset.range N).erase t, w (l u) := by
  have ht : t ∈ Finset.range N := Finset.mem_range.2 h
  refine ⟨?_, (Finset.add_sum_erase _ (fun u => w (l u)) ht).symm⟩
  rw [← Finset.add_sum_erase _ _ ht, setLoc_same]
  congr 1
  exact Finset.sum_congr rfl fun u hu => by rw [setLoc_ne _ _ (Finset.ne_of_mem_erase hu)]

theorem outside {l : Nat → Worker K} {a : (∀ i, Ideal K V i) × (Nat → Worker K)} (hr : AReach (Many.family (ideal eq)) (worker f) l a) {t : Nat} (ht : l t = .stop) :
    a.2 t = .stop := by
  induction hr with
  | start => exact ht
  | @step a b u _ st ih =>
    obtain ⟨q, hd, e⟩ := does st
    rw [e]
    by_cases eu : t = u
    · subst eu; exact absurd ih hd.goes
    · rw [setLoc_ne _ _ eu]; exact ih

theorem active {l : Nat → Worker K} {N : Nat} (hN : ∀ t, N ≤ t → l t = .stop) {a b : (∀ i, Ideal K V i) × (Nat → Worker K)}
    (hr : AReach (Many.family (ideal eq)) (worker f) l a) {t : Nat} (st : AStep (Many.family (ideal eq)) (worker f) t a b) : t < N := by
  by_contra hc
  obtain ⟨q, hd, e⟩ := does st
  exact hd.goes (outside hr (hN t (by omega)))

theorem books {l : Nat → Worker K} {N : Nat} (hN : ∀ t, N ≤ t → l t = .stop) (hl : ∀ t, ∃ ks, l t = .feed ks ∨ l t = .stop)
    {a : (∀ i, Ideal K V i) × (Nat → Worker K)} (hr : AReach (Many.family (ideal eq)) (worker f) l a) :
    Books f N (allJobs N l) (a.1 .jobs) (a.1 .results) a.2 := by
  induction hr with
  | start =>
    refine ⟨⟨0, ⟨[], rfl, rfl⟩, ?_⟩, fun hx => absurd rfl hx⟩
    show 0 + ((([] : List K)) : Multiset K) + _ = _
    simp only [Multiset.coe_nil, zero_add, allJobs]
    refine Finset.sum_congr rfl fun t _ => ?_
    obtain ⟨ks, e | e⟩ := hl t <;> rw [e] <;> rfl
  | @step a b t hr st ih =>
    have ht := active hN hr st
    obtain ⟨q, hd, e⟩ := does st
    obtain ⟨⟨js, h1, h2⟩, h3⟩ := ih
    rw [e]
    obtain ⟨e1, e2⟩ := sum_set Worker.own a.2 t q ht
    rw [e2] at h2
    generalize ∑ u ∈ (Finset.range N).erase t, (a.2 u).own = rest at h2 e1
    generalize a.1 .jobs = x at *
    generalize a.1 .results = hist at *
    generalize b.1 .jobs = x' at *
    generalize b.1 .results = hist' at *
    generalize hq0 : a.2 t = q0 at *
    cases hd with
    | push =>
      refine ⟨⟨js, h1, ?_⟩, fun _ => ⟨t, by rw [setLoc_same]; nofun⟩⟩
      rw [e1, ← h2]
      simp only [Worker.own, ← Multiset.cons_coe, ← Multiset.singleton_add]
      abel
    | pop =>
      refine ⟨⟨js, h1, ?_⟩, fun _ => ⟨t, by rw [setLoc_same]; nofun⟩⟩
      rw [e1, ← h2]
      simp only [Worker.own, ← Multiset.cons_coe, ← Multiset.singleton_add, Multiset.coe_nil]
      abel
    | none =>
      refine ⟨⟨js, h1, ?_⟩, fun hx => absurd rfl hx⟩
      rw [e1, ← h2]
      simp only [Worker.own, Multiset.coe_nil]
    | @store _ _ k =>
      refine ⟨⟨js + {k}, ?_, ?_⟩, fun _ => ⟨t, by rw [setLoc_same]; nofun⟩⟩
      · obtain ⟨ks, rfl, rfl⟩ := h1
        exact ⟨ks ++ [k], by rw [← Multiset.coe_add]; rfl, by simp⟩
      · rw [e1, ← h2]
        simp only [Worker.own, Multiset.coe_nil]
        abel

/-- What the map says after one `Set` for each job. -/
theorem stored_lookup (resp : ∀ a b, eq a b = true → f a = f b) {hist : List (Op K V)} {js : Multiset K} (hs : Stored f hist js) (k : K) :
    (∀ j ∈ js, eq k j = true → lookup eq hist k = some (f k)) ∧ ((∀ j ∈ js, eq k j = false) → lookup eq hist k = none) := by
  obtain ⟨ks, rfl, rfl⟩ := hs
  simp only [Multiset.mem_coe]
  induction ks using List.reverseRecOn with
  | nil => exact ⟨by simp, fun _ => rfl⟩
  | append_singleton ks a ih =>
    rw [List.map_append, List.map_singleton, lookup_set]
    refine ⟨fun j hj he => ?_, fun hn => ?_⟩
    · split
      · next h1 => rw [resp k a h1]
      · next h1 =>
        rcases List.mem_append.1 hj with h2 | h2
        · exact ih.1 j h2 he
        · rw [List.mem_singleton] at h2; subst h2; exact absurd he h1
    · rw [hn a (by simp)]
      exact ih.2 fun j hj => hn j (List.mem_append_left _ hj)

/-- With whole calls the workers come to an end. -/
theorem whole_ends {l : Nat → Worker K} {N : Nat} (hN : ∀ t, N ≤ t → l t = .stop) {a : (∀ i, Ideal K V i) × (Nat → Worker K)}
    (hr : AReach (Many.family (ideal eq)) (worker f) l a) : Acc (fun b a => ∃ t, AStep (Many.family (ideal eq)) (worker f) t a b) a := by
  generalize hn : 3 * (a.1 .jobs).length + ∑ t ∈ Finset.range N, (a.2 t).weight = n
  induction n using Nat.strongRecOn generalizing a with
  | _ n ih =>
    refine ⟨_, fun b ⟨t, st⟩ => ih _ ?_ (hr.step st) rfl⟩
    have ht := active hN hr st
    obtain ⟨q, hd, e⟩ := does st
    rw [e, ← hn]
    obtain ⟨e1, e2⟩ := sum_set Worker.weight a.2 t q ht
    rw [e1, e2]
    generalize ∑ u ∈ (Finset.range N).erase t, (a.2 u).weight = rest
    generalize a.1 .jobs = x at *
    generalize a.1 .results = hist at *
    generalize b.1 .jobs = x' at *
    generalize b.1 .results = hist' at *
    generalize a.2 t = q0 at *
    cases hd with
    | push => simp only [Worker.weight, List.length_cons]; omega
    | pop => simp only [Worker.weight, List.length_cons, List.length_nil]; omega
    | none => simp only [Worker.weight, List.length_nil]; omega
    | store => simp only [Worker.weight, List.length_nil]; omega

end Verif.WorkMap
