import Verif.PoolTree.Spec
import Verif.PoolFair.Props
/-!
# Lemmas for C142
-/
namespace Verif.PoolTree
open Verif.GoPool

variable {mx : Int} {p : Nat} {sub roots : Nat → List Nat} {t t' : Sys} {s s' : St}

/-- Every step is one of the pool, or leaves the pool alone. -/
theorem project (st : TStep sub t t') : Step t.pool t'.pool ∨ t'.pool = t.pool := by
  cases st with
  | call a j rest h1 h2 => exact .inl (.call _ j h2)
  | accepted => exact .inr rfl
  | rejected => exact .inr rfl
  | visit => exact .inr rfl
  | take k w c j h1 h2 => exact .inl (.take _ k w c j h1 h2)
  | back k w c j h1 h2 => exact .inl (.handled _ k w c j h1)
  | inner s' h => exact .inl h.step

theorem TReach.pool (r : TReach mx p sub roots t) : Reach mx p t.pool := by
  induction r with
  | start tt => exact .init tt
  | step r st ih =>
    rcases project st with h | h
    · exact ih.step h
    · rw [h]; exact ih

/-- No handler is called in such a step. -/
theorem Inner.handled (h : Inner s s') : s'.handled = s.handled := by
  obtain ⟨st, -, hg⟩ := h
  cases st with
  | take k w c j h1 h2 =>
    have := (hg k w c j).1 (by simp [St.setGor])
    rw [h1] at this; cases this
  | _ => rfl

theorem Inner.job (h : Inner s s') {j : Nat} (hn : s.job j = .new) : s'.job j = .new := by
  rcases PoolFair.job_step (j := j) h.step with g | ⟨g, g'⟩ | ⟨g, _⟩ | ⟨⟨w, g⟩, _⟩
  · rw [g, hn]
  · have := h.jobs j g'; rw [hn] at this; cases this
  · rw [hn] at g; cases g
  · rw [hn] at g; cases g

theorem Inner.rejected (h : Inner s s') {j : Nat} (hn : s.job j = .rejected) : s'.job j = .rejected := by
  rcases PoolFair.job_step (j := j) h.step with g | ⟨g, g'⟩ | ⟨g, _⟩ | ⟨⟨w, g⟩, _⟩
  · rw [g, hn]
  all_goals rw [hn] at g; cases g

theorem Inner.accepted (h : Inner s s') {j : Nat} (hn : s.job j = .accepted) : s'.job j = .accepted := by
  rcases PoolFair.job_step (j := j) h.step with g | ⟨g, g'⟩ | ⟨g, _⟩ | ⟨⟨w, g⟩, _⟩
  · rw [g, hn]
  all_goals rw [hn] at g; cases g

theorem Inner.not_new (h : Inner s s') {j : Nat} (hn : s.job j ≠ .new) : s'.job j ≠ .new := by
  rcases PoolFair.job_step (j := j) h.step with g | ⟨g, g'⟩ | ⟨g, g' | ⟨w, g'⟩⟩ | ⟨⟨w, g⟩, g'⟩
  · rwa [g]
  all_goals rw [g']; simp

/-- The item is on some list. -/
def Has (t : Sys) (x : Item) : Prop := ∃ a, x ∈ t.todo a

/-- The visit of the job is under way or was made: it was rejected and nobody waits for the answer, or a worker took it. -/
def Done (job : Nat → JobPc) (handled : Nat → Nat) (has : Item → Prop) (j : Nat) : Prop :=
  (job j = .rejected ∧ ¬ has (.wait j)) ∨ (job j = .accepted ∧ handled j = 1)

structure Core (sub roots : Nat → List Nat) (job : Nat → JobPc) (handled seen : Nat → Nat) (has : Item → Prop) : Prop where
  run : ∀ j, has (.run j) → job j = .new ∧ In sub roots j
  wait : ∀ j, has (.wait j) → job j ≠ .new
  visit : ∀ j, has (.visit j) → seen j = 0 ∧ Done job handled has j
  once : ∀ j, seen j ≠ 0 → seen j = 1 ∧ Done job handled has j
  fresh : ∀ i j, j ∈ sub i → seen i = 0 → job j = .new ∧ ¬ has (.run j)
  inside : ∀ j, job j ≠ .new → In sub roots j
  -- nothing is forgotten
  issued : ∀ j, (∃ a, j ∈ roots a) ∨ (∃ i, j ∈ sub i ∧ seen i ≠ 0) → job j ≠ .new ∨ has (.run j)
  rej : ∀ j, job j = .rejected → has (.wait j) ∨ has (.visit j) ∨ seen j ≠ 0
  acc : ∀ j, handled j ≠ 0 → has (.visit j) ∨ seen j ≠ 0
  call : ∀ j, job j = .called ∨ (∃ w, job j = .sending w) → has (.wait j)

theorem Core.mono {job : Nat → JobPc} {handled seen : Nat → Nat} {has has' : Item → Prop} (h : ∀ x, has' x ↔ has x)
    (c : Core sub roots job handled seen has) : Core sub roots job handled seen has' := by
  have : has' = has := funext fun x => propext (h x)
  rwa [this]

section core
variable {job job' : Nat → JobPc} {handled seen : Nat → Nat} {has : Item → Prop} {j : Nat}

theorem core_call (c : Core sub roots job handled seen has) (hr : has (.run j)) :
    Core sub roots (fun i => if i = j then .called else job i) handled seen (fun x => x = .wait j ∨ (has x ∧ x ≠ .run j)) := by
  have hj := (c.run j hr).1
  have nd : ∀ i, Done job handled has i → i ≠ j ∧ Done (fun i => if i = j then .called else job i) handled
      (fun x => x = .wait j ∨ (has x ∧ x ≠ .run j)) i := by
    intro i hd
    have : i ≠ j := by
      rintro rfl
      rcases hd with ⟨h, _⟩ | ⟨h, _⟩ <;> rw [hj] at h <;> cases h
    refine ⟨this, ?_⟩
    rcases hd with ⟨h1, h2⟩ | ⟨h1, h2⟩
    · left; simp [this, h1, h2]
    · right; simp [this, h1, h2]
  constructor
  · rintro i (h | ⟨h, h'⟩)
    · cases h
    · have : i ≠ j := fun e => h' (by rw [e])
      simpa [this] using c.run i h
  · rintro i (h | ⟨h, h'⟩)
    · cases h; simp
    · by_cases e : i = j
      · simp [e]
      · simpa [e] using c.wait i h
  · rintro i (h | ⟨h, h'⟩)
    · cases h
    · exact ⟨(c.visit i h).1, (nd i (c.visit i h).2).2⟩
  · intro i h
    exact ⟨(c.once i h).1, (nd i (c.once i h).2).2⟩
  · intro i i' h h'
    have g := c.fresh i i' h h'
    have : i' ≠ j := by rintro rfl; exact g.2 hr
    simp [this, g.1, g.2]
  · intro i h
    by_cases e : i = j
    · subst e; exact (c.run i hr).2
    · exact c.inside i (by simpa [e] using h)
  · intro i h
    by_cases e : i = j
    · left; simp [e]
    · rcases c.issued i h with g | g
      · left; simpa [e] using g
      · right; right; exact ⟨g, by simpa using e⟩
  · intro i h
    have e : i ≠ j := by rintro rfl; simp at h
    simp only [if_neg e] at h
    rcases c.rej i h with g | g | g
    · exact .inl (.inr ⟨g, by simp⟩)
    · exact .inr (.inl (.inr ⟨g, by simp⟩))
    · exact .inr (.inr g)
  · intro i h
    rcases c.acc i h with g | g
    · exact .inl (.inr ⟨g, by simp⟩)
    · exact .inr g
  · intro i h
    by_cases e : i = j
    · left; rw [e]
    · right; exact ⟨c.call i (by simpa [e] using h), by simp⟩

theorem core_accepted (c : Core sub roots job handled seen has) (hj : job j = .accepted) :
    Core sub roots job handled seen (fun x => has x ∧ x ≠ .wait j) := by
  have nd : ∀ i, Done job handled has i → Done job handled (fun x => has x ∧ x ≠ .wait j) i := by
    rintro i (⟨h1, h2⟩ | ⟨h1, h2⟩)
    · left; exact ⟨h1, fun h => h2 h.1⟩
    · right; exact ⟨h1, h2⟩
  constructor
  · exact fun i h => c.run i h.1
  · exact fun i h => c.wait i h.1
  · exact fun i h => ⟨(c.visit i h.1).1, nd i (c.visit i h.1).2⟩
  · exact fun i h => ⟨(c.once i h).1, nd i (c.once i h).2⟩
  · exact fun i i' h h' => ⟨(c.fresh i i' h h').1, fun g => (c.fresh i i' h h').2 g.1⟩
  · exact c.inside
  · intro i h
    rcases c.issued i h with g | g
    · exact .inl g
    · exact .inr ⟨g, by simp⟩
  · intro i h
    have e : i ≠ j := by rintro rfl; rw [hj] at h; cases h
    rcases c.rej i h with g | g | g
    · exact .inl ⟨g, by simpa using e⟩
    · exact .inr (.inl ⟨g, by simp⟩)
    · exact .inr (.inr g)
  · intro i h
    rcases c.acc i h with g | g
    · exact .inl ⟨g, by simp⟩
    · exact .inr g
  · intro i h
    have e : i ≠ j := by rintro rfl; rw [hj] at h; rcases h with h | ⟨w, h⟩ <;> cases h
    exact ⟨c.call i h, by simpa using e⟩

theorem core_rejected (c : Core sub roots job handled seen has) (hw : has (.wait j)) (hj : job j = .rejected) :
    Core sub roots job handled seen (fun x => x = .visit j ∨ (has x ∧ x ≠ .wait j)) := by
  have nj : ¬ Done job handled has j := by
    rintro (⟨_, h⟩ | ⟨h, _⟩)
    · exact h hw
    · rw [hj] at h; cases h
  have nd : ∀ i, Done job handled has i → Done job handled (fun x => x = .visit j ∨ (has x ∧ x ≠ .wait j)) i := by
    rintro i (⟨h1, h2⟩ | ⟨h1, h2⟩)
    · left; refine ⟨h1, ?_⟩; rintro (h | h); cases h; exact h2 h.1
    · right; exact ⟨h1, h2⟩
  constructor
  · rintro i (h | h)
    · cases h
    · exact c.run i h.1
  · rintro i (h | h)
    · cases h
    · exact c.wait i h.1
  · rintro i (h | h)
    · cases h
      refine ⟨by_contra fun h => nj (c.once j h).2, .inl ⟨hj, ?_⟩⟩
      rintro (h | h)
      · cases h
      · exact h.2 rfl
    · exact ⟨(c.visit i h.1).1, nd i (c.visit i h.1).2⟩
  · exact fun i h => ⟨(c.once i h).1, nd i (c.once i h).2⟩
  · intro i i' h h'
    refine ⟨(c.fresh i i' h h').1, ?_⟩
    rintro (g | g)
    · cases g
    · exact (c.fresh i i' h h').2 g.1
  · exact c.inside
  · intro i h
    rcases c.issued i h with g | g
    · exact .inl g
    · exact .inr (.inr ⟨g, by simp⟩)
  · intro i h
    by_cases e : i = j
    · exact .inr (.inl (.inl (by rw [e])))
    · rcases c.rej i h with g | g | g
      · exact .inl (.inr ⟨g, by simpa using e⟩)
      · exact .inr (.inl (.inr ⟨g, by simp⟩))
      · exact .inr (.inr g)
  · intro i h
    rcases c.acc i h with g | g
    · exact .inl (.inr ⟨g, by simp⟩)
    · exact .inr g
  · intro i h
    have e : i ≠ j := by rintro rfl; rw [hj] at h; rcases h with h | ⟨w, h⟩ <;> cases h
    exact .inr ⟨c.call i h, by simpa using e⟩

theorem core_visit (hT : Trees sub roots) (c : Core sub roots job handled seen has) (hv : has (.visit j)) :
    Core sub roots job handled (fun i => if i = j then seen i + 1 else seen i)
      (fun x => (∃ i ∈ sub j, x = .run i) ∨ (has x ∧ x ≠ .visit j)) := by
  obtain ⟨h0, hd⟩ := c.visit j hv
  have hin : In sub roots j := c.inside j (by rcases hd with ⟨h, _⟩ | ⟨h, _⟩ <;> rw [h] <;> simp)
  have nd : ∀ i, Done job handled has i → Done job handled (fun x => (∃ i ∈ sub j, x = .run i) ∨ (has x ∧ x ≠ .visit j)) i := by
    rintro i (⟨h1, h2⟩ | ⟨h1, h2⟩)
    · left; refine ⟨h1, ?_⟩; rintro (⟨_, _, h⟩ | h); cases h; exact h2 h.1
    · right; exact ⟨h1, h2⟩
  constructor
  · rintro i (⟨i', h, e⟩ | h)
    · cases e; exact ⟨(c.fresh j i h h0).1, .sub hin h⟩
    · exact c.run i h.1
  · rintro i (⟨i', h, e⟩ | h)
    · cases e
    · exact c.wait i h.1
  · rintro i (⟨i', h, e⟩ | ⟨h, h'⟩)
    · cases e
    · have e : i ≠ j := by simpa using h'
      simp only [if_neg e]
      exact ⟨(c.visit i h).1, nd i (c.visit i h).2⟩
  · intro i h
    by_cases e : i = j
    · subst e
      simp only [if_true]
      exact ⟨by omega, nd i hd⟩
    · simp only [if_neg e] at h ⊢
      exact ⟨(c.once i h).1, nd i (c.once i h).2⟩
  · intro i i' h h'
    have e : i ≠ j := by rintro rfl; simp at h'
    simp only [if_neg e] at h'
    refine ⟨(c.fresh i i' h h').1, ?_⟩
    rintro (⟨_, g, e'⟩ | g)
    · cases e'; exact e (hT.parent i j i' h g)
    · exact (c.fresh i i' h h').2 g.1
  · exact c.inside
  · rintro i h
    by_cases hi : i ∈ sub j
    · exact .inr (.inl ⟨i, hi, rfl⟩)
    · have : (∃ a, i ∈ roots a) ∨ ∃ i', i ∈ sub i' ∧ seen i' ≠ 0 := by
        rcases h with h | ⟨i', h1, h2⟩
        · exact .inl h
        · have e : i' ≠ j := by rintro rfl; exact hi h1
          simp only [if_neg e] at h2
          exact .inr ⟨i', h1, h2⟩
      rcases c.issued i this with g | g
      · exact .inl g
      · exact .inr (.inr ⟨g, by simp⟩)
  · intro i h
    by_cases e : i = j
    · right; right; simp [e]
    · rcases c.rej i h with g | g | g
      · exact .inl (.inr ⟨g, by simp⟩)
      · exact .inr (.inl (.inr ⟨g, by simpa using e⟩))
      · right; right; simpa [e] using g
  · intro i h
    by_cases e : i = j
    · right; simp [e]
    · rcases c.acc i h with g | g
      · exact .inl (.inr ⟨g, by simpa using e⟩)
      · right; simpa [e] using g
  · intro i h
    exact .inr ⟨c.call i h, by simp⟩

theorem core_take (c : Core sub roots job handled seen has) (hj : job j = .accepted) (h0 : handled j = 0) :
    Core sub roots job (fun i => if i = j then handled i + 1 else handled i) seen (fun x => x = .visit j ∨ has x) := by
  have nj : ¬ Done job handled has j := by
    rintro (⟨h, _⟩ | ⟨_, h⟩)
    · rw [hj] at h; cases h
    · omega
  have nd : ∀ i, Done job handled has i → Done job (fun i => if i = j then handled i + 1 else handled i) (fun x => x = .visit j ∨ has x) i := by
    intro i hd
    have e : i ≠ j := by rintro rfl; exact nj hd
    rcases hd with ⟨h1, h2⟩ | ⟨h1, h2⟩
    · left; refine ⟨h1, ?_⟩; rintro (h | h); cases h; exact h2 h
    · right; exact ⟨h1, by simpa [e] using h2⟩
  constructor
  · rintro i (h | h)
    · cases h
    · exact c.run i h
  · rintro i (h | h)
    · cases h
    · exact c.wait i h
  · rintro i (h | h)
    · cases h
      exact ⟨by_contra fun h => nj (c.once j h).2, .inr ⟨hj, by simp [h0]⟩⟩
    · exact ⟨(c.visit i h).1, nd i (c.visit i h).2⟩
  · exact fun i h => ⟨(c.once i h).1, nd i (c.once i h).2⟩
  · intro i i' h h'
    refine ⟨(c.fresh i i' h h').1, ?_⟩
    rintro (g | g)
    · cases g
    · exact (c.fresh i i' h h').2 g
  · exact c.inside
  · intro i h
    exact (c.issued i h).imp id .inr
  · intro i h
    exact (c.rej i h).imp .inr (.imp .inr id)
  · intro i h
    by_cases e : i = j
    · left; left; rw [e]
    · exact (c.acc i (by simpa [e] using h)).imp .inr id
  · exact fun i h => .inr (c.call i h)

end core

theorem core_inner {seen : Nat → Nat} {has : Item → Prop} (h : Inner s s') (c : Core sub roots s.job s.handled seen has) :
    Core sub roots s'.job s'.handled seen has := by
  have nd : ∀ i, Done s.job s.handled has i → Done s'.job s'.handled has i := by
    rintro i (⟨h1, h2⟩ | ⟨h1, h2⟩)
    · left; exact ⟨h.rejected h1, h2⟩
    · right; exact ⟨h.accepted h1, by rw [h.handled]; exact h2⟩
  constructor
  · exact fun i g => ⟨h.job (c.run i g).1, (c.run i g).2⟩
  · exact fun i g => h.not_new (c.wait i g)
  · exact fun i g => ⟨(c.visit i g).1, nd i (c.visit i g).2⟩
  · exact fun i g => ⟨(c.once i g).1, nd i (c.once i g).2⟩
  · exact fun i i' g g' => ⟨h.job (c.fresh i i' g g').1, (c.fresh i i' g g').2⟩
  · exact fun i g => c.inside i fun g' => g (h.job g')
  · exact fun i g => (c.issued i g).imp h.not_new id
  · intro i g
    rcases PoolFair.job_step (j := i) h.step with e | ⟨_, e⟩ | ⟨e, _⟩ | ⟨_, e⟩
    · exact c.rej i (e ▸ g)
    · rw [g] at e; cases e
    · exact .inl (c.call i (.inl e))
    · rw [g] at e; cases e
  · intro i g
    rw [h.handled] at g
    exact c.acc i g
  · intro i g
    rcases PoolFair.job_step (j := i) h.step with e | ⟨_, e⟩ | ⟨e, _⟩ | ⟨e, _⟩
    · exact c.call i (e ▸ g)
    · exact c.call i (.inl (h.jobs i e))
    · exact c.call i (.inl e)
    · exact c.call i (.inr e)

structure Inv (sub roots : Nat → List Nat) (t : Sys) : Prop where
  nodup : ∀ a, (t.todo a).Nodup
  excl : ∀ a b x, x ∈ t.todo a → x ∈ t.todo b → a = b
  core : Core sub roots t.pool.job t.pool.handled t.seen (Has t)
  idle : ∀ k, (∀ w c j, t.pool.gor k ≠ .handling w c j) → t.todo (.worker k) = []

theorem inv_start (hT : Trees sub roots) (tt : Nat → Int) : Inv sub roots (start mx p tt roots) := by
  have mem : ∀ a x, x ∈ (start mx p tt roots).todo a → ∃ b j, a = .outside b ∧ x = .run j ∧ j ∈ roots b := by
    intro a x hx
    cases a with
    | worker k => simp [start] at hx
    | outside b =>
      simp only [start, List.mem_map] at hx
      obtain ⟨j, h1, h2⟩ := hx
      exact ⟨b, j, rfl, h2.symm, h1⟩
  have has : ∀ x, Has (start mx p tt roots) x → ∃ b j, x = .run j ∧ j ∈ roots b := by
    rintro x ⟨a, h⟩
    obtain ⟨b, j, _, h⟩ := mem a x h
    exact ⟨b, j, h⟩
  refine ⟨?_, ?_, ?_, fun k _ => rfl⟩
  · intro a
    cases a with
    | worker k => simp [start]
    | outside b => exact (List.nodup_map_iff (fun i j h => by cases h; rfl)).2 (hT.tops b)
  · intro a b x ha hb
    obtain ⟨a', j, rfl, rfl, h1⟩ := mem _ _ ha
    obtain ⟨b', j', rfl, h, h2⟩ := mem _ _ hb
    cases h
    rw [hT.top a' b' j h1 h2]
  constructor
  · intro j h
    obtain ⟨b, _, h, h1⟩ := has _ h
    cases h
    exact ⟨rfl, .top h1⟩
  · intro j h
    obtain ⟨b, _, h, h1⟩ := has _ h
    cases h
  · intro j h
    obtain ⟨b, _, h, h1⟩ := has _ h
    cases h
  · intro j h; exact absurd rfl h
  · intro i j h1 h2
    refine ⟨rfl, fun h => ?_⟩
    obtain ⟨b, _, h, h3⟩ := has _ h
    cases h
    exact hT.apart b i _ h3 h1
  · intro j h; exact absurd rfl h
  · rintro j (⟨a, h⟩ | ⟨i, _, h⟩)
    · exact .inr ⟨.outside a, List.mem_map.2 ⟨j, h, rfl⟩⟩
    · exact absurd rfl h
  · intro j h; cases h
  · intro j h; exact absurd rfl h
  · rintro j (h | ⟨w, h⟩) <;> cases h

theorem todo_set (t : Sys) (a b : Who) (l : List Item) : (t.set a l).todo b = if b = a then l else t.todo b := rfl

/-- The first item of a list is replaced by items that were on no list. -/
theorem replace {a : Who} {x : Item} {rest l : List Item} (i : Inv sub roots t) (ha : t.todo a = x :: rest)
    (ht : ∀ b, t'.todo b = if b = a then l ++ rest else t.todo b) (hl : l.Nodup) (hn : ∀ y ∈ l, ¬ Has t y) :
    (∀ b, (t'.todo b).Nodup) ∧ (∀ b b' y, y ∈ t'.todo b → y ∈ t'.todo b' → b = b') ∧
      ∀ y, Has t' y ↔ y ∈ l ∨ (Has t y ∧ y ≠ x) := by
  have hr : x ∉ rest ∧ rest.Nodup := by
    have := i.nodup a
    rw [ha, List.nodup_cons] at this
    exact this
  have mem : ∀ b y, y ∈ t'.todo b → (b = a ∧ y ∈ l) ∨ (y ∈ t.todo b ∧ y ≠ x) := by
    intro b y h
    rw [ht b] at h
    by_cases e : b = a
    · rw [if_pos e, List.mem_append] at h
      rcases h with h | h
      · exact .inl ⟨e, h⟩
      · exact .inr ⟨by rw [e, ha]; exact List.mem_cons_of_mem _ h, fun e' => hr.1 (e' ▸ h)⟩
    · rw [if_neg e] at h
      exact .inr ⟨h, fun e' => e (i.excl b a x (e' ▸ h) (by rw [ha]; simp))⟩
  refine ⟨fun b => ?_, fun b b' y h h' => ?_, fun y => ⟨fun ⟨b, h⟩ => ?_, ?_⟩⟩
  · rw [ht b]
    by_cases e : b = a
    · rw [if_pos e, List.nodup_append]
      refine ⟨hl, hr.2, fun y hy z hz e => ?_⟩
      subst e
      exact hn y hy ⟨a, by rw [ha]; exact List.mem_cons_of_mem _ hz⟩
    · rw [if_neg e]; exact i.nodup b
  · rcases mem b y h with ⟨rfl, g⟩ | ⟨g, _⟩ <;> rcases mem b' y h' with ⟨rfl, g'⟩ | ⟨g', _⟩
    · rfl
    · exact absurd ⟨_, g'⟩ (hn y g)
    · exact absurd ⟨_, g⟩ (hn y g')
    · exact i.excl b b' y g g'
  · rcases mem b y h with ⟨rfl, g⟩ | ⟨g, g'⟩
    · exact .inl g
    · exact .inr ⟨⟨b, g⟩, g'⟩
  · rintro (h | ⟨⟨b, h⟩, h'⟩)
    · exact ⟨a, by rw [ht a, if_pos rfl]; exact List.mem_append_left _ h⟩
    · by_cases e : b = a
      · subst e
        rw [ha, List.mem_cons] at h
        exact ⟨b, by rw [ht b, if_pos rfl]; exact List.mem_append_right _ (h.resolve_left h')⟩
      · exact ⟨b, by rw [ht b, if_neg e]; exact h⟩

/-- A worker whose list is not empty is in the handler. -/
theorem Inv.busy (i : Inv sub roots t) {k : Nat} {x : Item} {rest : List Item} (h : t.todo (.worker k) = x :: rest) :
    ∃ w c j, t.pool.gor k = .handling w c j := by
  by_contra hc
  push Not at hc
  rw [i.idle k hc] at h; cases h

theorem inv_step (hT : Trees sub roots) (i : Inv sub roots t) (o : ExactlyOnce t.pool) (o' : ExactlyOnce t'.pool) (st : TStep sub t t') :
    Inv sub roots t' := by
  have idle' : ∀ {a x rest l} {p' : St} {sn : Nat → Nat}, t.todo a = x :: rest → p'.gor = t.pool.gor →
      ∀ k, (∀ w c j, p'.gor k ≠ .handling w c j) → (({ t with pool := p', seen := sn } : Sys).set a l).todo (.worker k) = [] := by
    intro a x rest l p' sn ha hp k hk
    have hk' : ∀ w c j, t.pool.gor k ≠ .handling w c j := by rw [← hp]; exact hk
    rw [todo_set]
    have e : Who.worker k ≠ a := by
      rintro rfl
      rw [i.idle k hk'] at ha; cases ha
    rw [if_neg e]
    exact i.idle k hk'
  cases st with
  | call a j rest h1 h2 =>
    have hr : Has t (.run j) := ⟨a, by rw [h1]; simp⟩
    obtain ⟨r1, r2, r3⟩ := replace (t' := { t with pool := t.pool.setJob j .called }.set a (.wait j :: rest)) (l := [.wait j]) i h1
      (fun b => rfl) (by simp) (by simpa using fun h => i.core.wait j h h2)
    exact ⟨r1, r2, (core_call i.core hr).mono fun x => by rw [r3 x]; simp, idle' h1 rfl⟩
  | accepted a j rest h1 h2 =>
    obtain ⟨r1, r2, r3⟩ := replace (t' := t.set a rest) (l := []) i h1 (fun b => rfl) (by simp) (by simp)
    exact ⟨r1, r2, (core_accepted i.core h2).mono fun x => by rw [r3 x]; simp, idle' h1 rfl⟩
  | rejected a j rest h1 h2 =>
    have hw : Has t (.wait j) := ⟨a, by rw [h1]; simp⟩
    have nv : ¬ Has t (.visit j) := fun h => by
      rcases (i.core.visit j h).2 with ⟨_, h⟩ | ⟨h, _⟩
      · exact h hw
      · rw [h2] at h; cases h
    obtain ⟨r1, r2, r3⟩ := replace (t' := t.set a (.visit j :: rest)) (l := [.visit j]) i h1 (fun b => rfl) (by simp) (by simpa using nv)
    exact ⟨r1, r2, (core_rejected i.core hw h2).mono fun x => by rw [r3 x]; simp, idle' h1 rfl⟩
  | visit a j rest h1 =>
    have hv : Has t (.visit j) := ⟨a, by rw [h1]; simp⟩
    obtain ⟨r1, r2, r3⟩ := replace (t' := ({ t with seen := fun i => if i = j then t.seen i + 1 else t.seen i } : Sys).set a ((sub j).map Item.run ++ rest))
      (l := (sub j).map Item.run) i h1 (fun b => rfl) ((List.nodup_map_iff (fun i j h => by cases h; rfl)).2 (hT.subs j)) (by
        intro y hy
        obtain ⟨c, hc, rfl⟩ := List.mem_map.1 hy
        exact (i.core.fresh j c hc (i.core.visit j hv).1).2)
    exact ⟨r1, r2, (core_visit hT i.core hv).mono fun x => by rw [r3 x]; simp [eq_comm], idle' h1 rfl⟩
  | take k w c j h1 h2 =>
    have h0 : t.todo (.worker k) = [] := i.idle k (by rw [h1]; simp)
    have hle := o'.atMostOnce j
    have hz : t.pool.handled j = 0 := by
      simp [Sys.set, St.setGor] at hle
      exact hle
    have ha : t.pool.job j = .accepted := by
      by_contra hc
      have := o'.onlyAccepted j hc
      simp [Sys.set, St.setGor] at this
    have nv : ¬ Has t (.visit j) := fun h => by
      rcases (i.core.visit j h).2 with ⟨h, _⟩ | ⟨_, h⟩
      · rw [ha] at h; cases h
      · omega
    have hmem : ∀ b y, y ∈ (if b = Who.worker k then [Item.visit j] else t.todo b) ↔ (b = .worker k ∧ y = .visit j) ∨ y ∈ t.todo b := by
      intro b y
      by_cases e : b = .worker k
      · subst e; simp [h0]
      · simp [e]
    refine ⟨fun b => ?_, fun b b' y h h' => ?_, (core_take i.core ha hz).mono fun x => ?_, fun k' hk => ?_⟩
    · rw [todo_set]
      split
      · simp
      · exact i.nodup b
    · rw [todo_set, hmem] at h h'
      rcases h with ⟨rfl, rfl⟩ | h <;> rcases h' with ⟨rfl, g⟩ | h'
      · rfl
      · exact absurd ⟨_, h'⟩ nv
      · rw [g] at h; exact absurd ⟨_, h⟩ nv
      · exact i.excl b b' y h h'
    · constructor
      · rintro ⟨b, h⟩
        rw [todo_set, hmem] at h
        exact h.imp And.right fun h => ⟨b, h⟩
      · rintro (rfl | ⟨b, h⟩)
        · exact ⟨.worker k, by rw [todo_set]; simp⟩
        · exact ⟨b, by rw [todo_set, hmem]; exact .inr h⟩
    · have e : k' ≠ k := by
        rintro rfl
        exact hk w c j (by simp [Sys.set, St.setGor])
      rw [todo_set, if_neg (by simpa using e)]
      exact i.idle k' fun w c j => by simpa [Sys.set, St.setGor, e] using hk w c j
  | back k w c j h1 h2 =>
    refine ⟨i.nodup, i.excl, i.core, fun k' hk => ?_⟩
    by_cases e : k' = k
    · rw [e]; exact h2
    · exact i.idle k' fun w c j => by simpa [St.setGor, e] using hk w c j
  | inner s' h =>
    exact ⟨i.nodup, i.excl, core_inner h i.core, fun k hk => i.idle k fun w c j g => hk w c j ((h.gors k w c j).2 g)⟩

theorem inv_reach (hm : 0 < mx) (hT : Trees sub roots) (r : TReach mx p sub roots t) : Inv sub roots t := by
  induction r with
  | start tt => exact inv_start hT tt
  | step r st ih => exact inv_step hT ih (exactlyOnce hm r.pool) (exactlyOnce hm (r.step st).pool) st

/-! ## Executions -/

section exec
variable {τ : Nat → Sys} {a : Who} {rest : List Item} {n j : Nat}

theorem TExec.reach (e : TExec mx p sub roots τ) (n : Nat) : TReach mx p sub roots (τ n) := by
  induction n with
  | zero => obtain ⟨tt, h⟩ := e.start; rw [h]; exact .start tt
  | succ n ih =>
    rcases e.next n with h | h
    · exact ih.step h
    · rw [h]; exact ih

theorem TExec.exec (e : TExec mx p sub roots τ) : PoolFair.Exec mx p (fun n => (τ n).pool) where
  start := by obtain ⟨tt, h⟩ := e.start; exact ⟨tt, by rw [h]; rfl⟩
  next := fun n => by
    rcases e.next n with h | h
    · exact project h
    · right; rw [h]

/-- What can become of a list. -/
theorem todo_step (i : Inv sub roots t) (st : TStep sub t t') {x : Item} (ha : t.todo a = x :: rest)
    (hc : t'.todo a ≠ t.todo a) :
    (∃ j, x = .run j ∧ t'.todo a = .wait j :: rest) ∨
    (∃ j, x = .wait j ∧ (t'.todo a = rest ∧ t'.pool.job j = .accepted ∨ t'.todo a = .visit j :: rest)) ∨
    (∃ j, x = .visit j ∧ t'.todo a = (sub j).map Item.run ++ rest ∧ t'.seen j ≠ 0) := by
  have other : ∀ {b : Who} {t0 : Sys} {l : List Item}, (t0.set b l).todo a ≠ t.todo a → t0.todo = t.todo → a = b := by
    intro b t0 l h h0
    by_contra e
    rw [todo_set, if_neg e, h0] at h
    exact h rfl
  cases st with
  | call b j rest' h1 h2 =>
    obtain rfl := other hc rfl
    rw [ha] at h1; cases h1
    exact .inl ⟨j, rfl, by rw [todo_set, if_pos rfl]⟩
  | accepted b j rest' h1 h2 =>
    obtain rfl := other hc rfl
    rw [ha] at h1; cases h1
    exact .inr (.inl ⟨j, rfl, .inl ⟨by rw [todo_set, if_pos rfl], h2⟩⟩)
  | rejected b j rest' h1 h2 =>
    obtain rfl := other hc rfl
    rw [ha] at h1; cases h1
    exact .inr (.inl ⟨j, rfl, .inr (by rw [todo_set, if_pos rfl])⟩)
  | visit b j rest' h1 =>
    obtain rfl := other hc rfl
    rw [ha] at h1; cases h1
    exact .inr (.inr ⟨j, rfl, by rw [todo_set, if_pos rfl], by simp [Sys.set]⟩)
  | take k w c j h1 h2 =>
    obtain rfl := other hc rfl
    obtain ⟨w', c', j', h⟩ := i.busy ha
    rw [h1] at h; cases h
  | back => exact absurd rfl hc
  | inner => exact absurd rfl hc

/-- A list whose first item can always be dealt with changes. -/
theorem moves (f : Fair sub τ) {l : List Item} (hn : (τ n).todo a = l)
    (able : ∀ m, n ≤ m → (τ m).todo a = l → ∃ m', m ≤ m' ∧ ∀ m'', m' ≤ m'' → (τ m'').todo a = l →
      ∃ t', TStep sub (τ m'') t' ∧ t'.todo a ≠ l) :
    ∃ m, n ≤ m ∧ (τ m).todo a = l ∧ (τ (m + 1)).todo a ≠ l := by
  by_contra hc
  have same : ∀ m, n ≤ m → (τ m).todo a = l := fun m hm => by
    induction m, hm using Nat.le_induction with
    | base => exact hn
    | succ m hm ih =>
      by_contra hd
      exact hc ⟨m, hm, ih, hd⟩
  obtain ⟨m', h1, h2⟩ := able n (Nat.le_refl _) hn
  obtain ⟨m, h3, h4⟩ := f.programs a m' fun m hm => by
    obtain ⟨t', h5, h6⟩ := h2 m hm (same m (by omega))
    exact ⟨t', h5, by rw [same m (by omega)]; exact h6⟩
  exact h4 ((same (m + 1) (by omega)).trans (same m (by omega)).symm)

theorem step_of_change (e : TExec mx p sub roots τ) {m : Nat} (h : (τ (m + 1)).todo a ≠ (τ m).todo a) :
    TStep sub (τ m) (τ (m + 1)) := by
  rcases e.next m with g | g
  · exact g
  · rw [g] at h; exact absurd rfl h

theorem run_moves (hm : 0 < mx) (hT : Trees sub roots) (e : TExec mx p sub roots τ) (f : Fair sub τ)
    (hn : (τ n).todo a = .run j :: rest) : ∃ m, n ≤ m ∧ (τ m).todo a = .wait j :: rest := by
  obtain ⟨m, h1, h2, h3⟩ := moves f hn fun m hnm h => ⟨m, Nat.le_refl _, fun m'' _ h' =>
    ⟨_, .call _ a j rest h' ((inv_reach hm hT (e.reach m'')).core.run j ⟨a, by rw [h']; simp⟩).1, by rw [todo_set, if_pos rfl]; simp⟩⟩
  rw [← h2] at h3
  rcases todo_step (inv_reach hm hT (e.reach m)) (step_of_change e h3) h2 h3 with ⟨_, g, g'⟩ | ⟨_, g, _⟩ | ⟨_, g, _⟩
  · cases g; exact ⟨m + 1, by omega, g'⟩
  all_goals cases g

/-- The answer of `Run` comes and stays. -/
theorem answered (hm : 0 < mx) (e : TExec mx p sub roots τ) (f : Fair sub τ) (h : (τ n).pool.job j ≠ .new) :
    ∃ m, n ≤ m ∧ (((∀ m', m ≤ m' → (τ m').pool.job j = .accepted) ∧ ∀ m', m ≤ m' → (τ m').pool.handled j = 1) ∨
      ∀ m', m ≤ m' → (τ m').pool.job j = .rejected) := by
  have stays : ∀ (q : JobPc), (q = .accepted ∨ q = .rejected) → ∀ a b, a ≤ b → (τ a).pool.job j = q → (τ b).pool.job j = q :=
    fun q hq a b hab ha => by
      induction b, hab using Nat.le_induction with
      | base => exact ha
      | succ b _ ih =>
        rcases e.exec.next b with st | st
        · rcases PoolFair.job_step (j := j) st with g | ⟨g, _⟩ | ⟨g, _⟩ | ⟨⟨w, g⟩, _⟩
          · exact g.trans ih
          all_goals rcases hq with rfl | rfl <;> rw [ih] at g <;> cases g
        · rw [st]; exact ih
  obtain ⟨m, h1, ⟨h2, h3⟩ | ⟨h2, h3⟩⟩ := PoolFair.C125_outcome hm e.exec f.runs f.workers h
  · exact ⟨m, h1, .inl ⟨fun m' h => stays _ (.inl rfl) m m' h h2, h3⟩⟩
  · exact ⟨m, h1, .inr fun m' h => stays _ (.inr rfl) m m' h h2⟩

theorem wait_moves (hm : 0 < mx) (hT : Trees sub roots) (e : TExec mx p sub roots τ) (f : Fair sub τ)
    (hn : (τ n).todo a = .wait j :: rest) : ∃ m, n ≤ m ∧ ((τ m).todo a = rest ∧ (τ m).pool.job j = .accepted ∨ (τ m).todo a = .visit j :: rest) := by
  have hj := (inv_reach hm hT (e.reach n)).core.wait j ⟨a, by rw [hn]; simp⟩
  obtain ⟨m0, h0, hans⟩ := answered hm e f hj
  obtain ⟨m, h1, h2, h3⟩ := moves f hn fun m hnm h => ⟨max m m0, Nat.le_max_left .., fun m'' hm'' h' => by
    have hle : m0 ≤ m'' := (Nat.le_max_right m m0).trans hm''
    rcases hans with ⟨g, _⟩ | g
    · exact ⟨_, .accepted _ a j rest h' (g m'' hle), by rw [todo_set, if_pos rfl]; intro h; simpa using congrArg List.length h⟩
    · exact ⟨_, .rejected _ a j rest h' (g m'' hle), by rw [todo_set, if_pos rfl]; simp⟩⟩
  rw [← h2] at h3
  rcases todo_step (inv_reach hm hT (e.reach m)) (step_of_change e h3) h2 h3 with ⟨_, g, g'⟩ | ⟨_, g, g'⟩ | ⟨_, g, _⟩
  · cases g
  · cases g; exact ⟨m + 1, by omega, g'⟩
  · cases g

theorem visit_moves (hm : 0 < mx) (hT : Trees sub roots) (e : TExec mx p sub roots τ) (f : Fair sub τ)
    (hn : (τ n).todo a = .visit j :: rest) :
    ∃ m, n ≤ m ∧ (τ m).todo a = (sub j).map Item.run ++ rest ∧ (τ m).seen j ≠ 0 := by
  have hne : ∀ t : Sys, t.todo a = .visit j :: rest → (sub j).map Item.run ++ rest ≠ .visit j :: rest := by
    intro t _ h
    cases hs : sub j with
    | nil => rw [hs] at h; simpa using congrArg List.length h
    | cons c cs => rw [hs] at h; simp at h
  obtain ⟨m, h1, h2, h3⟩ := moves f hn fun m hnm h => ⟨m, Nat.le_refl _, fun m'' _ h' =>
    ⟨_, .visit _ a j rest h', by rw [todo_set, if_pos rfl]; exact hne _ h'⟩⟩
  rw [← h2] at h3
  rcases todo_step (inv_reach hm hT (e.reach m)) (step_of_change e h3) h2 h3 with ⟨_, g, g'⟩ | ⟨_, g, g'⟩ | ⟨_, g, g'⟩
  · cases g
  · cases g
  · cases g; exact ⟨m + 1, by omega, g'⟩

/-- A list of calls comes to an end if each call does. -/
theorem runs_end {l : List Nat} (h : ∀ j ∈ l, ∀ n rest, (τ n).todo a = .run j :: rest → ∃ m, n ≤ m ∧ (τ m).todo a = rest) :
    ∀ n, (τ n).todo a = l.map Item.run ++ rest → ∃ m, n ≤ m ∧ (τ m).todo a = rest := by
  induction l with
  | nil => exact fun n hn => ⟨n, Nat.le_refl _, hn⟩
  | cons c cs ih =>
    intro n hn
    obtain ⟨m, h1, h2⟩ := h c (by simp) n _ hn
    obtain ⟨m', h3, h4⟩ := ih (fun j hj => h j (by simp [hj])) m h2
    exact ⟨m', by omega, h4⟩

theorem visit_ends (hm : 0 < mx) (hT : Trees sub roots) (e : TExec mx p sub roots τ) (f : Fair sub τ) (j : Nat) :
    ∀ n rest, (τ n).todo a = .visit j :: rest → ∃ m, n ≤ m ∧ (τ m).todo a = rest := by
  induction j using hT.deep.induction with
  | _ j ih =>
    intro n rest hn
    obtain ⟨m, h1, h2, _⟩ := visit_moves hm hT e f hn
    obtain ⟨m', h3, h4⟩ := runs_end (l := sub j) (rest := rest) (fun c hc n rest hn => by
      obtain ⟨m, g1, g2⟩ := run_moves hm hT e f hn
      obtain ⟨m', g3, ⟨g4, _⟩ | g4⟩ := wait_moves hm hT e f g2
      · exact ⟨m', by omega, g4⟩
      · obtain ⟨m'', g5, g6⟩ := ih c hc m' rest g4
        exact ⟨m'', by omega, g6⟩) m h2
    exact ⟨m', by omega, h4⟩

/-- Whatever is first on a list is done some time. -/
theorem pops (hm : 0 < mx) (hT : Trees sub roots) (e : TExec mx p sub roots τ) (f : Fair sub τ) (x : Item)
    (hn : (τ n).todo a = x :: rest) : ∃ m, n ≤ m ∧ (τ m).todo a = rest := by
  have wt : ∀ j n, (τ n).todo a = .wait j :: rest → ∃ m, n ≤ m ∧ (τ m).todo a = rest := fun j n hn => by
    obtain ⟨m', g3, ⟨g4, _⟩ | g4⟩ := wait_moves hm hT e f hn
    · exact ⟨m', by omega, g4⟩
    · obtain ⟨m'', g5, g6⟩ := visit_ends hm hT e f j m' rest g4
      exact ⟨m'', by omega, g6⟩
  cases x with
  | run j =>
    obtain ⟨m, g1, g2⟩ := run_moves hm hT e f hn
    obtain ⟨m', g3, g4⟩ := wt j m g2
    exact ⟨m', by omega, g4⟩
  | wait j => exact wt j n hn
  | visit j => exact visit_ends hm hT e f j n rest hn

theorem pops_all (hm : 0 < mx) (hT : Trees sub roots) (e : TExec mx p sub roots τ) (f : Fair sub τ) (l : List Item) :
    ∀ n, (τ n).todo a = l ++ rest → ∃ m, n ≤ m ∧ (τ m).todo a = rest := by
  induction l with
  | nil => exact fun n hn => ⟨n, Nat.le_refl _, hn⟩
  | cons x l ih =>
    intro n hn
    obtain ⟨m, h1, h2⟩ := pops hm hT e f x hn
    obtain ⟨m', h3, h4⟩ := ih m h2
    exact ⟨m', by omega, h4⟩

/-- An item that is on a list gets to its front. -/
theorem front (hm : 0 < mx) (hT : Trees sub roots) (e : TExec mx p sub roots τ) (f : Fair sub τ) {x : Item} (h : Has (τ n) x) :
    ∃ m, n ≤ m ∧ ∃ a rest, (τ m).todo a = x :: rest := by
  obtain ⟨a, ha⟩ := h
  obtain ⟨l, l', hl⟩ := List.append_of_mem ha
  obtain ⟨m, h1, h2⟩ := pops_all (rest := x :: l') hm hT e f l n hl
  exact ⟨m, h1, a, l', h2⟩

theorem seen_step (st : TStep sub t t') : t.seen j ≤ t'.seen j := by
  cases st with
  | visit a i rest h => simp only [Sys.set]; split <;> omega
  | _ => exact Nat.le_refl _

theorem seen_mono (e : TExec mx p sub roots τ) {m : Nat} (h : n ≤ m) : (τ n).seen j ≤ (τ m).seen j := by
  induction m, h using Nat.le_induction with
  | base => exact Nat.le_refl _
  | succ m _ ih =>
    refine ih.trans ?_
    rcases e.next m with st | st
    · exact seen_step st
    · rw [st]

theorem visit_seen (hm : 0 < mx) (hT : Trees sub roots) (e : TExec mx p sub roots τ) (f : Fair sub τ) (h : Has (τ n) (.visit j)) :
    ∃ m, n ≤ m ∧ (τ m).seen j ≠ 0 := by
  obtain ⟨m, h1, a, rest, h2⟩ := front hm hT e f h
  obtain ⟨m', h3, _, h4⟩ := visit_moves hm hT e f h2
  exact ⟨m', by omega, h4⟩

/-- A job that was given to `Run` is visited. -/
theorem called_seen (hm : 0 < mx) (hT : Trees sub roots) (e : TExec mx p sub roots τ) (f : Fair sub τ)
    (h : (τ n).pool.job j ≠ .new) : ∃ m, n ≤ m ∧ (τ m).seen j ≠ 0 := by
  obtain ⟨m, h1, ⟨_, h2⟩ | h2⟩ := answered hm e f h
  · rcases (inv_reach hm hT (e.reach m)).core.acc j (by rw [h2 m (Nat.le_refl _)]; simp) with g | g
    · obtain ⟨m', h3, h4⟩ := visit_seen hm hT e f g
      exact ⟨m', by omega, h4⟩
    · exact ⟨m, h1, g⟩
  · rcases (inv_reach hm hT (e.reach m)).core.rej j (h2 m (Nat.le_refl _)) with g | g | g
    · obtain ⟨m1, g1, a, rest, g2⟩ := front hm hT e f g
      obtain ⟨m2, g3, ⟨_, g4⟩ | g4⟩ := wait_moves hm hT e f g2
      · rw [h2 m2 (by omega)] at g4; cases g4
      · obtain ⟨m', h3, h4⟩ := visit_seen (n := m2) (j := j) hm hT e f ⟨a, by rw [g4]; simp⟩
        exact ⟨m', by omega, h4⟩
    · obtain ⟨m', h3, h4⟩ := visit_seen hm hT e f g
      exact ⟨m', by omega, h4⟩
    · exact ⟨m, h1, g⟩

theorem wait_step (st : TStep sub t t') (hj : t.pool.job j ≠ .new) (h : Item.wait j ∉ t.todo a) : Item.wait j ∉ t'.todo a := by
  have key : ∀ {b : Who} {t0 : Sys} {l : List Item}, t0.todo = t.todo → (a = b → Item.wait j ∉ l) → Item.wait j ∉ (t0.set b l).todo a := by
    intro b t0 l h0 hl
    rw [todo_set, h0]
    split
    · exact hl ‹_›
    · exact h
  have tail : ∀ {b : Who} {x : Item} {rest : List Item}, t.todo b = x :: rest → a = b → Item.wait j ∉ rest := by
    rintro b x rest hb rfl hr
    exact h (by rw [hb]; exact List.mem_cons_of_mem _ hr)
  cases st with
  | call b i rest h1 h2 =>
    refine key rfl fun e hc => ?_
    rcases List.mem_cons.1 hc with g | g
    · cases g; exact hj h2
    · exact tail h1 e g
  | accepted b i rest h1 h2 => exact key rfl (tail h1)
  | rejected b i rest h1 h2 =>
    refine key rfl fun e hc => ?_
    rcases List.mem_cons.1 hc with g | g
    · cases g
    · exact tail h1 e g
  | visit b i rest h1 =>
    refine key rfl fun e hc => ?_
    rcases List.mem_append.1 hc with g | g
    · simp at g
    · exact tail h1 e g
  | take k w c i h1 h2 => exact key rfl fun _ => by simp
  | back => exact h
  | inner => exact h

theorem not_new_step (st : TStep sub t t') (hj : t.pool.job j ≠ .new) : t'.pool.job j ≠ .new := by
  rcases project st with h | h
  · rcases PoolFair.job_step (j := j) h with g | ⟨g, g'⟩ | ⟨g, g' | ⟨w, g'⟩⟩ | ⟨⟨w, g⟩, g'⟩
    · rwa [g]
    all_goals rw [g']; simp
  · rwa [h]

theorem wait_stays (e : TExec mx p sub roots τ) {m : Nat} (h : n ≤ m) (hj : (τ n).pool.job j ≠ .new) (hw : Item.wait j ∉ (τ n).todo a) :
    Item.wait j ∉ (τ m).todo a ∧ (τ m).pool.job j ≠ .new := by
  induction m, h using Nat.le_induction with
  | base => exact ⟨hw, hj⟩
  | succ m _ ih =>
    rcases e.next m with st | st
    · exact ⟨wait_step st ih.2 ih.1, not_new_step st ih.2⟩
    · rw [st]; exact ih

/-- Nobody waits for ever. -/
theorem wait_over (hm : 0 < mx) (hT : Trees sub roots) (e : TExec mx p sub roots τ) (f : Fair sub τ)
    (hj : (τ n).pool.job j ≠ .new) : ∃ m, n ≤ m ∧ ∀ m', m ≤ m' → ¬ Has (τ m') (.wait j) := by
  by_cases hw : Has (τ n) (.wait j)
  · obtain ⟨m, h1, a, rest, h2⟩ := front hm hT e f hw
    have i := inv_reach hm hT (e.reach m)
    have hmem : Item.wait j ∈ (τ m).todo a := by rw [h2]; simp
    have hj' := i.core.wait j ⟨a, hmem⟩
    have hr : Item.wait j ∉ rest := by
      have := i.nodup a
      rw [h2, List.nodup_cons] at this
      exact this.1
    obtain ⟨m', h3, h4⟩ := wait_moves hm hT e f h2
    have ha : Item.wait j ∉ (τ m').todo a := by
      rcases h4 with ⟨h4, _⟩ | h4 <;> rw [h4]
      · exact hr
      · simpa using hr
    refine ⟨m', by omega, fun m'' h5 ⟨b, hb⟩ => ?_⟩
    by_cases eb : b = a
    · subst eb
      have hn' : (τ m').pool.job j ≠ .new := by
        rcases h4 with ⟨_, h4⟩ | h4
        · rw [h4]; simp
        · rcases ((inv_reach hm hT (e.reach m')).core.visit j ⟨b, by rw [h4]; simp⟩).2 with ⟨g, _⟩ | ⟨g, _⟩ <;> rw [g] <;> simp
      exact (wait_stays e h5 hn' ha).1 hb
    · exact (wait_stays e (by omega : m ≤ m'') hj' fun hc => eb (i.excl b a _ hc hmem)).1 hb
  · exact ⟨n, Nat.le_refl _, fun m' h ⟨b, hb⟩ => (wait_stays e h hj fun hc => hw ⟨b, hc⟩).1 hb⟩

/-- A worker that is in the handler before and after a step, with nothing to do, stays. -/
theorem handling_step (st : TStep sub t t') {k w c i w' c' i' : Nat} (h : t.pool.gor k = .handling w c i)
    (h' : t'.pool.gor k = .handling w' c' i') (h0 : t.todo (.worker k) = []) :
    t'.todo (.worker k) = [] ∧ t'.pool.gor k = t.pool.gor k := by
  have key : ∀ {b : Who} {x : Item} {rest l : List Item} {t0 : Sys}, t.todo b = x :: rest → t0.todo = t.todo →
      (t0.set b l).todo (.worker k) = [] := by
    intro b x rest l t0 hb ht
    have e : Who.worker k ≠ b := by rintro rfl; rw [h0] at hb; cases hb
    rw [todo_set, if_neg e, ht, h0]
  cases st with
  | call b j rest h1 h2 => exact ⟨key h1 rfl, rfl⟩
  | accepted b j rest h1 h2 => exact ⟨key h1 rfl, rfl⟩
  | rejected b j rest h1 h2 => exact ⟨key h1 rfl, rfl⟩
  | visit b j rest h1 => exact ⟨key h1 rfl, rfl⟩
  | take k' w1 c1 j h1 h2 =>
    have e : k ≠ k' := by rintro rfl; rw [h] at h1; cases h1
    refine ⟨by rw [todo_set, if_neg (by simpa using e)]; exact h0, ?_⟩
    simp [Sys.set, St.setGor, e]
  | back k' w1 c1 j h1 h2 =>
    have e : k ≠ k' := by
      rintro rfl
      simp [St.setGor] at h'
    exact ⟨h0, by simp [St.setGor, e]⟩
  | inner s' hi => exact ⟨h0, by rw [(hi.gors k w c i).2 h, h]⟩

end exec

end Verif.PoolTree
