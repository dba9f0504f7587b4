import Verif.SklWeak.Spec
import Verif.Skl.Gone
/-!
# Removed nodes lead on
-/
set_option linter.unusedSectionVars false
namespace Verif.SklWeak
open Verif.Go Verif.MapSpec Verif.Skl

section
variable {K V : Type} [GoOrdered K] [LawfulOrdered K] [DecidableEq K] [Inhabited K] [Inhabited V]

theorem Was.mono {hist ops ops' : List (Op K V)} {k : K} {v : V} (h : Was hist ops k v) (hp : ops <+: ops') : Was hist ops' k v := by
  obtain ⟨pre, h1, h2⟩ := h
  exact ⟨pre, h1.trans hp, h2⟩

theorem Was.now {hist ops : List (Op K V)} {k : K} {v : V} (h : lookup (hist ++ ops) k = some v) : Was hist ops k v :=
  ⟨ops, List.prefix_refl _, h⟩

theorem Always.mono {hist ops ops' : List (Op K V)} {k : K} (h : Always hist ops' k) (hp : ops <+: ops') : Always hist ops k :=
  fun pre h1 => h pre (h1.trans hp)

theorem Always.now {hist ops : List (Op K V)} {k : K} (h : Always hist ops k) : (lookup (hist ++ ops) k).isSome :=
  h ops (List.prefix_refl _)

/-- The entry after a node of the list. -/
theorem live_next {hist : List (Op K V)} {w : World K V} {nodes : List Addr} (r : Rep w nodes) (h : Abs hist w nodes) {x : Addr} (hx : x ∈ nodes) :
    ∃ y, (w.heap.mem x).next 0 = some y ∧
      ((y = w.skl.tail ∧ ∀ z, GoOrdered.lt (w.heap.mem x).key z = true → ¬ (lookup hist z).isSome) ∨
       (y ∈ nodes ∧ GoOrdered.lt (w.heap.mem x).key (w.heap.mem y).key = true ∧
        ∀ z, GoOrdered.lt (w.heap.mem x).key z = true → (lookup hist z).isSome → z = (w.heap.mem y).key ∨ GoOrdered.lt (w.heap.mem y).key z = true)) := by
  obtain ⟨P, S, hn⟩ := List.append_of_mem hx
  have hc := r.chain0
  rw [hn] at hc
  have hc := Chain.from_mem hc
  have hso := r.sorted
  rw [hn, List.pairwise_append, List.pairwise_cons] at hso
  have hS : ∀ z, GoOrdered.lt (w.heap.mem x).key z = true → (lookup hist z).isSome → ∃ b ∈ S, (w.heap.mem b).key = z := by
    intro z hz hs
    obtain ⟨v, hv⟩ := Option.isSome_iff_exists.1 hs
    obtain ⟨b, hb, hkb, _⟩ := (h z v).1 hv
    rw [hn] at hb
    simp only [List.mem_append, List.mem_cons] at hb
    rcases hb with hb | rfl | hb
    · have := hso.2.2 b hb x (by simp)
      rw [hkb, lt_asymm hz] at this; cases this
    · rw [← hkb, LawfulOrdered.irrefl] at hz; cases hz
    · exact ⟨b, hb, hkb⟩
  cases S with
  | nil =>
    refine ⟨w.skl.tail, hc, .inl ⟨rfl, fun z hz hs => ?_⟩⟩
    obtain ⟨b, hb, _⟩ := hS z hz hs
    simp at hb
  | cons b S =>
    refine ⟨b, hc.1, .inr ⟨by rw [hn]; simp, hso.2.1.1 b (by simp), fun z hz hs => ?_⟩⟩
    obtain ⟨c, hcS, hkc⟩ := hS z hz hs
    rcases List.mem_cons.1 hcS with rfl | hcS
    · exact .inl hkc.symm
    · right; rw [← hkc]; exact (List.pairwise_cons.1 hso.2.1.2).1 c hcS

/-- What is known of a node that was removed since the iteration began. -/
structure DeadOk (hist ops : List (Op K V)) (w : World K V) (nodes dead : List Addr) (x : Addr) : Prop where
  out : x ∉ nodes
  head : x ≠ w.skl.head
  tail : x ≠ w.skl.tail
  brk : x < w.heap.brk
  was : Was hist ops (w.heap.mem x).key (w.heap.mem x).value
  del : .del (w.heap.mem x).key ∈ ops
  next : ∃ y, (w.heap.mem x).next 0 = some y ∧
    ((y = w.skl.tail ∧ ∀ z, GoOrdered.lt (w.heap.mem x).key z = true → ¬ Always hist ops z) ∨
     ((y ∈ nodes ∨ y ∈ dead) ∧ GoOrdered.lt (w.heap.mem x).key (w.heap.mem y).key = true ∧
      ∀ z, GoOrdered.lt (w.heap.mem x).key z = true → Always hist ops z → z = (w.heap.mem y).key ∨ GoOrdered.lt (w.heap.mem y).key z = true))

/-- Where the iterator stands. -/
def At (w : World K V) (nodes dead : List Addr) (it : Iter) : Pos K → Prop
  | .start => it.node = none
  | .at k => ∃ x, (x ∈ nodes ∨ x ∈ dead) ∧ it.node = some x ∧ (w.heap.mem x).key = k
  | .done => False

structure Inv (hist ops : List (Op K V)) (w : World K V) (it : Iter) (q : Pos K) (nodes dead : List Addr) : Prop where
  rep : Rep w nodes
  abs : Abs (hist ++ ops) w nodes
  gone : ∀ x ∈ dead, DeadOk hist ops w nodes dead x
  at_ : At w nodes dead it q

theorem Inv.set {hist ops : List (Op K V)} {w : World K V} {it : Iter} {q : Pos K} {nodes dead : List Addr} (i : Inv hist ops w it q nodes dead)
    {k : K} {v : V} {w' : World K V} (e : Skl.set w k v = .ret w') : ∃ nodes', Inv hist (ops ++ [.set k v]) w' it q nodes' dead := by
  obtain ⟨w'', nodes', e', r', h', f, h1, h2⟩ := set_step i.rep i.abs k v
  rw [e] at e'; cases e'
  have hpre : ops <+: ops ++ [.set k v] := List.prefix_append _ _
  have hkey : ∀ x, x ∈ nodes ∨ x ∈ dead → (w'.heap.mem x).key = (w.heap.mem x).key := by
    intro x hx
    refine f.key x ?_
    rcases hx with hx | hx
    · exact i.rep.lt_brk x hx
    · exact (i.gone x hx).brk
  refine ⟨nodes', r', by rw [← List.append_assoc]; exact h', fun x hx => ?_, ?_⟩
  · have d := i.gone x hx
    have hm := set_mem i.rep e d.brk d.out d.head
    obtain ⟨y, hy, hor⟩ := d.next
    refine ⟨fun hn => ?_, by rw [f.head]; exact d.head, by rw [f.tail]; exact d.tail, lt_of_lt_of_le d.brk f.brk, by rw [hm]; exact d.was.mono hpre,
      by rw [hm]; exact List.mem_append_left _ d.del, y, by rw [hm]; exact hy, ?_⟩
    · rcases h2 x hn with h | h
      · exact d.out h
      · have := d.brk; omega
    · rw [hm]
      rcases hor with ⟨ht, hz⟩ | ⟨hin, hlt, hz⟩
      · exact .inl ⟨by rw [f.tail]; exact ht, fun z h ha => hz z h (ha.mono hpre)⟩
      · refine .inr ⟨hin.imp (h1 y) id, by rw [hkey y hin]; exact hlt, fun z h ha => by rw [hkey y hin]; exact hz z h (ha.mono hpre)⟩
  · have ha := i.at_
    cases q with
    | start => exact ha
    | done => exact ha
    | «at» k' =>
      obtain ⟨x, hx, hn, hk⟩ := ha
      exact ⟨x, hx.imp (h1 x) id, hn, by rw [hkey x hx]; exact hk⟩

theorem Inv.del {hist ops : List (Op K V)} {w : World K V} {it : Iter} {q : Pos K} {nodes dead : List Addr} (i : Inv hist ops w it q nodes dead)
    {k : K} {w' : World K V} {b : Bool} (e : Skl.del w k = .ret (w', b)) : ∃ nodes' dead', Inv hist (ops ++ [.del k]) w' it q nodes' dead' := by
  obtain ⟨w'', nodes', e', r', h', f, h1, h2⟩ := del_step i.rep i.abs k
  rw [e] at e'; cases e'
  have hpre : ops <+: ops ++ [.del k] := List.prefix_append _ _
  have hlt : ∀ x, x ∈ nodes ∨ x ∈ dead → x < w.heap.brk := by
    intro x hx
    rcases hx with hx | hx
    · exact i.rep.lt_brk x hx
    · exact (i.gone x hx).brk
  have hkey : ∀ x, x ∈ nodes ∨ x ∈ dead → (w'.heap.mem x).key = (w.heap.mem x).key := fun x hx => f.key x (hlt x hx)
  have hmv : ∀ y, y ∈ nodes ∨ y ∈ dead → y ∈ nodes' ∨ y ∈ nodes.filter (fun a => decide ((w.heap.mem a).key = k)) ++ dead := by
    intro y hy
    rcases hy with hy | hy
    · by_cases hk : (w.heap.mem y).key = k
      · exact .inr (List.mem_append_left _ (List.mem_filter.2 ⟨hy, by simp [hk]⟩))
      · exact .inl (h1 y hy hk)
    · exact .inr (List.mem_append_right _ hy)
  refine ⟨nodes', nodes.filter (fun a => decide ((w.heap.mem a).key = k)) ++ dead, r', by rw [← List.append_assoc]; exact h', fun x hx => ?_, ?_⟩
  · rcases List.mem_append.1 hx with hx | hx
    · obtain ⟨hx, hk⟩ := List.mem_filter.1 hx
      have hk : (w.heap.mem x).key = k := by simpa using hk
      have hm := del_mem i.rep e (a := x) (fun _ => hk) (i.rep.ne_head x hx)
      obtain ⟨y, hy, hor⟩ := live_next i.rep i.abs hx
      refine ⟨fun hn => (h2 x hn).2 hk, by rw [f.head]; exact i.rep.ne_head x hx, by rw [f.tail]; exact i.rep.ne_tail x hx,
        lt_of_lt_of_le (i.rep.lt_brk x hx) f.brk, ?_, by rw [hm, hk]; simp, y, by rw [hm]; exact hy, ?_⟩
      · rw [hm]; exact (Was.now ((i.abs _ _).2 ⟨x, hx, rfl, rfl⟩)).mono hpre
      · rw [hm]
        rcases hor with ⟨ht, hz⟩ | ⟨hin, hl, hz⟩
        · exact .inl ⟨by rw [f.tail]; exact ht, fun z h ha => hz z h (ha.mono hpre).now⟩
        · exact .inr ⟨hmv y (.inl hin), by rw [hkey y (.inl hin)]; exact hl, fun z h ha => by rw [hkey y (.inl hin)]; exact hz z h (ha.mono hpre).now⟩
    · have d := i.gone x hx
      have hm := del_mem i.rep e (a := x) (fun h => absurd h d.out) d.head
      obtain ⟨y, hy, hor⟩ := d.next
      refine ⟨fun hn => d.out (h2 x hn).1, by rw [f.head]; exact d.head, by rw [f.tail]; exact d.tail, lt_of_lt_of_le d.brk f.brk,
        by rw [hm]; exact d.was.mono hpre, by rw [hm]; exact List.mem_append_left _ d.del, y, by rw [hm]; exact hy, ?_⟩
      rw [hm]
      rcases hor with ⟨ht, hz⟩ | ⟨hin, hl, hz⟩
      · exact .inl ⟨by rw [f.tail]; exact ht, fun z h ha => hz z h (ha.mono hpre)⟩
      · exact .inr ⟨hmv y hin, by rw [hkey y hin]; exact hl, fun z h ha => by rw [hkey y hin]; exact hz z h (ha.mono hpre)⟩
  · have ha := i.at_
    cases q with
    | start => exact ha
    | done => exact ha
    | «at» k' =>
      obtain ⟨x, hx, hn, hk⟩ := ha
      exact ⟨x, hmv x hx, hn, by rw [hkey x hx]; exact hk⟩

/-- What a `Next` from position `q` may give. -/
def Fits (hist ops : List (Op K V)) (q : Pos K) : Option (K × V) → Prop
  | some (k, v) => q.before k ∧ Was hist ops k v ∧ (lookup (hist ++ ops) k = some v ∨ .del k ∈ ops) ∧
      ∀ z, Always hist ops z → q.before z → z = k ∨ GoOrdered.lt k z = true
  | none => ∀ z, Always hist ops z → ¬ q.before z

theorem Inv.next {hist ops : List (Op K V)} {w : World K V} {it : Iter} {q : Pos K} {nodes dead : List Addr} (i : Inv hist ops w it q nodes dead) :
    ∃ it' res, Skl.next w it = .ret (it', res) ∧ Fits hist ops q res ∧ ∀ k v, res = some (k, v) → Inv hist ops w it' (.at k) nodes dead := by
  have live : PosOk w nodes it q → q ≠ .done → ∃ it' res, Skl.next w it = .ret (it', res) ∧ Fits hist ops q res ∧
      ∀ k v, res = some (k, v) → Inv hist ops w it' (.at k) nodes dead := by
    intro hp hd
    obtain ⟨it', res, e, hn, hp'⟩ := next_spec i.rep i.abs hp hd
    refine ⟨it', res, e, ?_, ?_⟩
    · cases res with
      | none => intro z ha hb; have := hn z hb; have h2 := ha.now; rw [this] at h2; cases h2
      | some kv =>
        obtain ⟨k, v⟩ := kv
        exact ⟨hn.1, Was.now hn.2.1, .inl hn.2.1, fun z ha hb => hn.2.2 z hb ha.now⟩
    · rintro k v rfl
      obtain ⟨x, hx, h1, h2⟩ := hp'
      exact ⟨i.rep, i.abs, i.gone, x, .inl hx, h1, h2⟩
  have ha := i.at_
  cases q with
  | start => exact live ha (by simp)
  | done => exact ha.elim
  | «at» k =>
    obtain ⟨x, hx, hn, hk⟩ := ha
    rcases hx with hx | hx
    · exact live ⟨x, hx, hn, hk⟩ (by simp)
    · have d := i.gone x hx
      obtain ⟨y, hy, ⟨ht, hz⟩ | ⟨hin, hl, hz⟩⟩ := d.next
      · refine ⟨⟨some y⟩, none, by simp only [Skl.next, hn, hy, ht, if_true], ?_, by intro _ _ h; cases h⟩
        intro z haz hb
        exact hz z (by rw [hk]; exact hb) haz
      · have hyt : y ≠ w.skl.tail := by
          rcases hin with h | h
          · exact i.rep.ne_tail y h
          · exact (i.gone y h).tail
        refine ⟨⟨some y⟩, some ((w.heap.mem y).key, (w.heap.mem y).value), by simp only [Skl.next, hn, hy, if_neg hyt], ⟨?_, ?_, ?_, ?_⟩, ?_⟩
        · show GoOrdered.lt k _ = true; rw [← hk]; exact hl
        · rcases hin with h | h
          · exact Was.now ((i.abs _ _).2 ⟨y, h, rfl, rfl⟩)
          · exact (i.gone y h).was
        · rcases hin with h | h
          · exact .inl ((i.abs _ _).2 ⟨y, h, rfl, rfl⟩)
          · exact .inr (i.gone y h).del
        · intro z haz hb
          exact hz z (by rw [hk]; exact hb) haz
        · intro k' v' h
          simp only [Option.some.injEq, Prod.mk.injEq] at h
          exact ⟨i.rep, i.abs, i.gone, y, hin, rfl, h.1⟩

/-- The position after `out`. -/
def posOf (p : Pos K) (out : List (Given K V)) : Pos K := match out.getLast? with | none => p | some g => .at g.key

theorem Iterated.inv {s : BitVec 64} {hist ops : List (Op K V)} {p : Pos K} {w : World K V} {it : Iter} {out : List (Given K V)}
    (h : Iterated s hist p ops w it out) : ∃ nodes dead, Inv hist ops w it (posOf p out) nodes dead := by
  induction h with
  | @start w it hr hd =>
    obtain ⟨nodes, r, ha, hp⟩ := hr.inv
    refine ⟨nodes, [], r, by simpa using ha, by simp, ?_⟩
    cases p with
    | start => exact hp
    | done => exact absurd rfl hd
    | «at» k => obtain ⟨x, hx, h1, h2⟩ := hp; exact ⟨x, .inl hx, h1, h2⟩
  | @op ops w it out o w' _ hc e ih =>
    obtain ⟨nodes, dead, i⟩ := ih
    cases o with
    | set k v => obtain ⟨n', i'⟩ := i.set e; exact ⟨n', dead, i'⟩
    | del k =>
      have e' : (Skl.del w k).map Prod.fst = .ret w' := e
      cases hd : Skl.del w k with
      | ret r => obtain ⟨w2, b⟩ := r; rw [hd] at e'; simp at e'; subst e'; exact i.del hd
      | panic => rw [hd] at e'; cases e'
      | hang => rw [hd] at e'; cases e'
    | clear s' => exact absurd rfl (hc s')
  | @next ops w it out it' k v _ e ih =>
    obtain ⟨nodes, dead, i⟩ := ih
    obtain ⟨it2, res, e2, -, hi⟩ := i.next
    rw [e] at e2
    simp only [Outcome.ret_inj, Prod.mk.injEq] at e2
    obtain ⟨rfl, rfl⟩ := e2
    refine ⟨nodes, dead, ?_⟩
    have : posOf p (out ++ [⟨ops, k, v⟩]) = .at k := by simp [posOf]
    rw [this]
    exact hi k v rfl

end
end Verif.SklWeak
