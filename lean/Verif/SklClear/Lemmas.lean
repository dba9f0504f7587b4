import Verif.Skl.GoneProps
/-!
# What is left of a skip list that was cleared

`Clear` gives the map a new head and tail. Nodes of the old list stay as they are.
-/
set_option linter.unusedSectionVars false
namespace Verif.SklClear
open Verif.Go Verif.MapSpec Verif.Skl

variable {K V : Type} [GoOrdered K] [LawfulOrdered K] [DecidableEq K] [Inhabited K] [Inhabited V]

/-- The list lies above `b`. -/
structure Above (b : Addr) (w : World K V) (nodes : List Addr) : Prop where
  nodes : ∀ a ∈ nodes, b ≤ a
  head : b ≤ w.skl.head
  tail : b ≤ w.skl.tail
  brk : b ≤ w.heap.brk

/-- Whatever is done to a list above `b`, what lies below stays as it is. -/
theorem run_above {b : Addr} : ∀ (ops : List (Op K V)) {hist : List (Op K V)} {w : World K V} {nodes : List Addr},
    Rep w nodes → Abs hist w nodes → Above b w nodes →
    ∃ w' nodes', run w ops = .ret w' ∧ Rep w' nodes' ∧ Abs (hist ++ ops) w' nodes' ∧ Above b w' nodes' ∧
      ∀ a < b, w'.heap.mem a = w.heap.mem a := by
  intro ops
  induction ops with
  | nil => intro hist w nodes r h g; exact ⟨w, nodes, rfl, r, by simpa using h, g, fun _ _ => rfl⟩
  | cons op ops ih =>
    intro hist w nodes r h g
    cases op with
    | set k v =>
      obtain ⟨w', n', e, r', h', f, h1, h2⟩ := set_step r h k v
      have g' : Above b w' n' := ⟨fun a ha => (h2 a ha).elim (g.nodes a) (fun e => e ▸ g.brk), f.head ▸ g.head, f.tail ▸ g.tail,
        Nat.le_trans g.brk f.brk⟩
      obtain ⟨w'', n'', e2, r2, a2, g2, m2⟩ := ih r' h' g'
      refine ⟨w'', n'', by simp only [run, step, e, Outcome.bind_ret, e2], r2, by simpa using a2, g2, fun a ha => ?_⟩
      rw [m2 a ha, set_mem r e (Nat.lt_of_lt_of_le ha g.brk) (fun hn => Nat.not_le.2 ha (g.nodes a hn))
        (fun he => Nat.not_le.2 ha (he ▸ g.head))]
    | del k =>
      obtain ⟨w', n', e, r', h', f, h1, h2⟩ := del_step r h k
      have g' : Above b w' n' := ⟨fun a ha => g.nodes a (h2 a ha).1, f.head ▸ g.head, f.tail ▸ g.tail, Nat.le_trans g.brk f.brk⟩
      obtain ⟨w'', n'', e2, r2, a2, g2, m2⟩ := ih r' h' g'
      refine ⟨w'', n'', by simp only [run, step, e, Outcome.bind_ret, Outcome.map_ret, e2], r2, by simpa using a2, g2, fun a ha => ?_⟩
      rw [m2 a ha, del_mem r e (fun hn => absurd (g.nodes a hn) (Nat.not_le.2 ha)) (fun he => Nat.not_le.2 ha (he ▸ g.head))]
    | clear s =>
      have g' : Above b (Skl.clear w s) [] := by
        refine ⟨by simp, ?_, ?_, ?_⟩ <;> simp only [Skl.clear, newIn] <;> have := g.brk <;> omega
      obtain ⟨w'', n'', e2, r2, a2, g2, m2⟩ := ih (hist := hist ++ [.clear s]) (Rep.newIn w.heap s) (by
        intro k v; simp [lookup]) g'
      refine ⟨w'', n'', by simp only [run, step, Outcome.bind_ret]; exact e2, r2, by simpa using a2, g2, fun a ha => ?_⟩
      rw [m2 a ha]
      have h1 : a ≠ w.heap.brk := fun h => Nat.not_le.2 ha (h ▸ g.brk)
      have h2 : a ≠ w.heap.brk + 1 := by have := g.brk; omega
      simp [Skl.newIn, h1, h2]

/-- The entry of the end mark is never written. -/
theorem tail_zero {s : BitVec 64} {hist : List (Op K V)} {w : World K V} {p : Pos K} {it : Iter} (hr : Reach s hist w p it) :
    (w.heap.mem w.skl.tail).key = default ∧ (w.heap.mem w.skl.tail).value = default := by
  induction hr with
  | init => simp [Skl.new, Skl.newIn]
  | @set h w p it k v w' hr e ih =>
    obtain ⟨nodes, r, ha, _⟩ := hr.inv
    obtain ⟨w'', n', e', _, _, f, _⟩ := set_step r ha k v
    rw [e] at e'; cases e'
    rw [f.tail, set_mem r e r.tail_lt (fun h => r.ne_tail _ h rfl) (Ne.symm r.head_ne)]
    exact ih
  | @del h w p it k w' b hr _ e ih =>
    obtain ⟨nodes, r, ha, _⟩ := hr.inv
    obtain ⟨w'', n', e', _, _, f, _⟩ := del_step r ha k
    rw [e] at e'; cases e'
    rw [f.tail, del_mem r e (fun h => absurd rfl (r.ne_tail _ h)) (Ne.symm r.head_ne)]
    exact ih
  | clear _ _ => simp [Skl.clear, Skl.newIn]
  | next _ _ _ ih => exact ih
  | seek _ _ ih => exact ih
  | rewind _ ih => exact ih

/-- Going on through the nodes of another list, past its end mark. -/
theorem nexts_old {w : World K V} {t : Addr} (ht : t ≠ w.skl.tail) : ∀ (l : List Addr) (a : Addr) (it : Iter),
    Chain (fun a => (w.heap.mem a).next 0) t a l → (∀ b ∈ l, b ≠ w.skl.tail) → it.node = some a →
    nexts w (l.length + 1) it = .ret (⟨some t⟩, (kvs w (l ++ [t])).map some)
  | [], a, it, hc, _, hit => by
    have h1 : (w.heap.mem a).next 0 = some t := hc
    simp [nexts, Skl.next, hit, h1, ht, kvs]
  | b :: l, a, it, hc, hb, hit => by
    have ih := nexts_old ht l b ⟨some b⟩ hc.2 (fun c h => hb c (by simp [h])) rfl
    have h1 : (w.heap.mem a).next 0 = some b := hc.1
    rw [List.length_cons, nexts]
    simp [Skl.next, hit, h1, hb b (by simp), ih, kvs]

theorem Chain.congr {nx nx' : Addr → Option Addr} {t : Addr} : ∀ {l : List Addr} {a : Addr}, (∀ b ∈ a :: l, nx' b = nx b) →
    Chain nx t a l → Chain nx' t a l
  | [], a, h, hc => (h a (by simp)).trans hc
  | b :: l, a, h, hc => ⟨(h a (by simp)).trans hc.1, Chain.congr (fun c hc' => h c (by simp at hc' ⊢; tauto)) hc.2⟩

end Verif.SklClear
