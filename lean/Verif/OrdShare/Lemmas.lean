import Verif.OrdShare.Spec
import Verif.Conc.RWLocal
/-!
# Lemmas for the shared ordered map
-/
namespace Verif.OrdShare
open Verif.Go Verif.Conc Verif.Skl Verif.Ord Verif.MapSpec Relation

variable {K V : Type} [GoOrdered K] [LawfulOrdered K] [DecidableEq K] [Inhabited K] [Inhabited V]

/-- What a call has in its local variables. -/
def LocOk (o : OrdMap K V) (nodes : List Nat) (c : Call K V) : Loc K V → Prop
  | .start => True
  | .list acc it b => loops c ∧ ∃ P S a, nodes = P ++ S ∧ acc = pairs o P ∧
      Chain (fun a => (o.skl.heap.mem a).next 0) o.skl.skl.tail a S ∧ (it.node = some a ∨ it.node = none ∧ a = o.skl.skl.head) ∧
      (b = true → acc ≠ [] ∧ tells c acc = true) ∧ (b = false → acc ≠ [] → tells c acc = false) ∧
      ∀ p e q, acc = p ++ e :: q → p ≠ [] → tells c p = false

/-- How many rounds are left at most. -/
def left (nodes : List Nat) : Loc K V → Nat
  | .start => nodes.length + 1
  | .list acc _ _ => nodes.length - acc.length

theorem loc_step {o : OrdMap K V} {nodes : List Nat} (r : Rep o.skl nodes) {c : Call K V} {a b : Loc K V} (ok : LocOk o nodes c a)
    (st : Iterate o c a b) : LocOk o nodes c b ∧ left nodes b < left nodes a := by
  cases st with
  | init hc =>
    exact ⟨⟨hc, [], nodes, o.skl.skl.head, rfl, rfl, r.chain0, .inr ⟨rfl, rfl⟩, by simp, by simp, by simp⟩, by simp [left]⟩
  | @next acc it it' k hc hn =>
    obtain ⟨_, P, S, x, rfl, hacc, h3, h4, h5, h6, h7⟩ := ok
    cases S with
    | nil => rw [next_nil h3 h4] at hn; cases hn
    | cons y S =>
      rw [next_cons h3 (r.ne_tail y (by simp)) h4] at hn
      cases hn
      refine ⟨⟨hc, P ++ [y], S, y, by simp, by simp [hacc, pairs], h3.2, .inl rfl, fun h => ⟨by simp, h⟩, fun h _ => h, ?_⟩, ?_⟩
      · intro p e q he hp
        rcases List.eq_nil_or_concat q with rfl | ⟨q, z, rfl⟩
        · have := List.append_inj' he rfl
          rw [← this.1]
          exact h6 rfl (by rw [this.1]; exact hp)
        · have he' : acc ++ [((o.skl.heap.mem y).key, (o.m (o.skl.heap.mem y).key).getD default)] = (p ++ e :: q) ++ [z] := by
            rw [he]; simp
          exact h7 p e q (List.append_inj' he' rfl).1 hp
      · simp [left, hacc, pairs]
        omega

theorem loc_steps {o : OrdMap K V} {nodes : List Nat} (r : Rep o.skl nodes) {c : Call K V} {a : Loc K V}
    (h : ReflTransGen (Iterate o c) .start a) : LocOk o nodes c a := by
  induction h with
  | refl => trivial
  | tail _ st ih => exact (loc_step r ih st).1

theorem mem_inv {seed : BitVec 64} {o : OrdMap K V} {hist : List (Op K V)} (h : Ord.run (Ord.new seed) hist = .ret o) :
    ∃ nodes, Inv hist o nodes := by
  obtain ⟨o', nodes, e, i⟩ := run_inv seed hist
  rw [h] at e
  cases e
  exact ⟨nodes, i⟩

theorem run_snoc {o o' o'' : OrdMap K V} {hist : List (Op K V)} {op : Op K V} (h : Ord.run o hist = .ret o')
    (h' : Ord.step o' op = .ret o'') : Ord.run o (hist ++ [op]) = .ret o'' := by
  rw [Ord.run_append, h]
  simp [Ord.run, h']

theorem readsOnly {seed : BitVec 64} : RW.ReadsOnly (shared K V seed) := by
  intro s c acc r s' hw h
  cases h <;> first | rfl | (simp [shared, writes] at hw)

theorem live {seed : BitVec 64} : RW.Live (shared K V seed) := by
  rintro ⟨o, hist, e⟩ c acc h
  obtain ⟨nodes, i⟩ := mem_inv e
  have ok := loc_steps i.rep h
  cases acc with
  | start =>
    cases c with
    | set k v =>
      obtain ⟨o', _, e', _⟩ := step_inv i (.set k v)
      exact .inr ⟨_, ⟨o', _, run_snoc e (op := .set k v) e'⟩, .set e'⟩
    | del k =>
      obtain ⟨o', _, e', _⟩ := step_inv i (.del k)
      exact .inr ⟨_, ⟨o', _, run_snoc e (op := .del k) e'⟩, .del e'⟩
    | clear s => exact .inr ⟨_, ⟨Ord.clear o s, _, run_snoc e (op := .clear s) rfl⟩, .clear rfl⟩
    | get k => exact .inr ⟨_, _, .get⟩
    | len => exact .inr ⟨_, _, .len⟩
    | keys => exact .inl ⟨_, .init trivial⟩
    | values => exact .inl ⟨_, .init trivial⟩
    | range f => exact .inl ⟨_, .init trivial⟩
  | list acc it b =>
    obtain ⟨hc, P, S, a, rfl, rfl, h3, h4, -⟩ := ok
    have fin : Over o it b → ∃ r s', (shared K V seed).fin ⟨o, hist, e⟩ c (.list (pairs o P) it b) r s' := by
      intro ho
      cases c <;> simp only [loops] at hc
      · exact ⟨_, _, .keys ho⟩
      · exact ⟨_, _, .values ho⟩
      · exact ⟨_, _, .range ho⟩
    cases b with
    | true => exact .inr (fin (.inl rfl))
    | false =>
      cases S with
      | nil => exact .inr (fin (.inr ⟨_, next_nil h3 h4⟩))
      | cons y S => exact .inl ⟨_, .next hc (next_cons h3 (i.rep.ne_tail y (by simp)) h4)⟩

open Classical in
/-- The rounds left, for any memory. -/
noncomputable def bound {seed : BitVec 64} (o : Mem K V seed) (_ : Call K V) (l : Loc K V) : Nat :=
  if h : ∃ nodes, Rep o.1.skl nodes then left h.choose l else 0

theorem shrinks {seed : BitVec 64} : RW.ShrinksFrom (shared K V seed) bound := by
  rintro ⟨o, hist, e⟩ c acc acc' h st
  obtain ⟨nodes, i⟩ := mem_inv e
  have hr : ∃ nodes, Rep o.skl nodes := ⟨nodes, i.rep⟩
  simp only [bound, dif_pos hr]
  exact (loc_step hr.choose_spec (loc_steps hr.choose_spec h) st).2

/-- Memory and map agree. -/
def Agree {seed : BitVec 64} (o : Mem K V seed) (m : K → Option V) : Prop :=
  ∃ hist, Ord.run (Ord.new seed) hist = .ret o.1 ∧ m = lookup hist

theorem listed {hist : List (Op K V)} {o : OrdMap K V} {nodes : List Nat} (i : Inv hist o nodes) :
    Listed (lookup hist) (pairs o nodes) := by
  refine ⟨?_, i.pairs_spec⟩
  rw [pairs, List.pairwise_map]
  exact i.rep.sorted

theorem sim_step {seed : BitVec 64} (o o' : Mem K V seed) (c : Call K V) (x : Res K V) (m : K → Option V) (ag : Agree o m)
    (h : (RW.seqObj (shared K V seed)).step o c x o') : ∃ m', (mapObj K V).step m c x m' ∧ Agree o' m' := by
  obtain ⟨hist, e, rfl⟩ := ag
  obtain ⟨nodes, i⟩ := mem_inv e
  obtain ⟨acc, hi, hf⟩ := h
  have ok := loc_steps i.rep hi
  have ls := listed i
  have all : ∀ {acc : List (K × V)} {it : Iter} {b : Bool}, LocOk o.1 nodes c (.list acc it b) → Over o.1 it b →
      (∃ rest, pairs o.1 nodes = acc ++ rest ∧ (rest = [] ∨ acc ≠ [] ∧ tells c acc = true)) ∧
        ∀ p e q, acc = p ++ e :: q → p ≠ [] → tells c p = false := by
    rintro acc it b ⟨_, P, S, a, rfl, rfl, h3, h4, h5, h6, h7⟩ hn
    refine ⟨⟨pairs o.1 S, by simp [pairs], ?_⟩, h7⟩
    rcases hn with hb | ⟨it', hn⟩
    · exact .inr (h5 hb)
    · cases S with
      | nil => exact .inl rfl
      | cons y S => rw [next_cons h3 (i.rep.ne_tail y (by simp)) h4] at hn; cases hn
  cases hf with
  | @set k v _ e' => exact ⟨_, ⟨rfl, rfl⟩, _, run_snoc e (op := .set k v) e', by funext k'; rw [lookup_set]⟩
  | @del k _ e' => exact ⟨_, ⟨rfl, rfl⟩, _, run_snoc e (op := .del k) e', by funext k'; rw [lookup_del]⟩
  | @clear s _ e' => exact ⟨_, ⟨rfl, rfl⟩, _, run_snoc e (op := .clear s) (by rw [e']; rfl), by funext k'; rw [lookup_clear]⟩
  | @get k => exact ⟨_, ⟨by rw [Ord.get, i.m], rfl⟩, hist, e, rfl⟩
  | len => exact ⟨_, ⟨⟨_, ls, by rw [Ord.len, Skl.len, i.rep.len]; simp [pairs]⟩, rfl⟩, hist, e, rfl⟩
  | keys hn =>
    obtain ⟨⟨rest, h1, h2⟩, -⟩ := all ok hn
    rcases h2 with rfl | ⟨-, h2⟩
    · exact ⟨_, ⟨⟨_, ls, by rw [h1]; simp⟩, rfl⟩, hist, e, rfl⟩
    · simp [tells] at h2
  | values hn =>
    obtain ⟨⟨rest, h1, h2⟩, -⟩ := all ok hn
    rcases h2 with rfl | ⟨-, h2⟩
    · exact ⟨_, ⟨⟨_, ls, by rw [h1]; simp⟩, rfl⟩, hist, e, rfl⟩
    · simp [tells] at h2
  | range hn => exact ⟨_, ⟨⟨_, _, ls, all ok hn, rfl⟩, rfl⟩, hist, e, rfl⟩

end Verif.OrdShare
