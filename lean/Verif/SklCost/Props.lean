import Verif.SklCost.Spec
import Verif.SklCost.Lemmas
/-!
# C137: what a call on the skip-list map compares
-/
namespace Verif.SklCost
open Verif.Go Verif.Skl Verif.MapSpec

variable {K V : Type} [GoOrdered K] [LawfulOrdered K] [DecidableEq K] [Inhabited K] [Inhabited V]

theorem few_of_rep {hist : List (Op K V)} {w : World K V} {nodes : List Addr} (r : Rep w nodes)
    (h : Abs hist w nodes) (k : K) : Few hist k (search w k).2 := by
  obtain ⟨c, d, e, v, hd, hdm⟩ := search_spec r k
  obtain ⟨nd, hp⟩ := keys_present r h
  have hlk : lessKeys (search w k).2 = c.map fun a => (w.heap.mem a).key := by
    rw [e, lessKeys, List.filterMap_append, List.filterMap_map, List.filterMap_map]
    have h1 : List.filterMap (Ask.lessKey ∘
        fun a => Ask.less (w.heap.mem a).key) c = c.map fun a => (w.heap.mem a).key := by
      rw [← List.filterMap_eq_map]; rfl
    have h2 : List.filterMap (Ask.lessKey ∘
        fun a => Ask.differ (w.heap.mem a).key) d = [] := by
      rw [List.filterMap_eq_nil_iff]; intros; rfl
    rw [h1, h2, List.append_nil]
  have hnodes : ∀ a ∈ c, a ∈ nodes := by
    intro a ha
    rcases v.mem a ha with h | h
    · simp [before] at h; exact h.1
    · simp [after] at h; exact h.1
  have hsmall : ((lessKeys (search w k).2).filter fun a => GoOrdered.lt a k) =
      (c.filter fun a => GoOrdered.lt (w.heap.mem a).key k).map fun a => (w.heap.mem a).key := by
    rw [hlk, List.filter_map]; rfl
  have hbig : ((lessKeys (search w k).2).filter fun a => !GoOrdered.lt a k) =
      (c.filter fun a => !GoOrdered.lt (w.heap.mem a).key k).map fun a => (w.heap.mem a).key := by
    rw [hlk, List.filter_map]; rfl
  have hlev : ((lessKeys (search w k).2).filter fun a => !GoOrdered.lt a k).length ≤ 16 := by
    rw [hbig, List.length_map]; exact v.stopped
  have hfin : (search w k).2.length ≤ (lessKeys (search w k).2).length + 1 := by
    rw [hlk, e]; simp; exact hd
  refine ⟨?_, ?_, hlev, hfin, ?_⟩
  · intro a ha
    rw [← hp a]
    rw [e] at ha
    simp only [List.mem_append, List.mem_map] at ha
    rcases ha with (⟨x, hx, ex⟩ | ⟨x, hx, ex⟩) | (⟨x, hx, ex⟩ | ⟨x, hx, ex⟩)
    · obtain rfl := Ask.less.inj ex
      exact List.mem_map_of_mem (hnodes x hx)
    · cases ex
    · cases ex
    · obtain rfl := Ask.differ.inj ex
      exact List.mem_map_of_mem (hdm x hx)
  · rw [hsmall, List.pairwise_map]
    have hs : (before w nodes k).Sublist nodes := List.filter_sublist
    exact r.sorted.sublist (v.moved.trans hs)
  · intro ks hks
    have hperm : ks.Perm (nodes.map fun a => (w.heap.mem a).key) :=
      (List.perm_ext_iff_of_nodup hks.1 nd).2 fun a => by rw [hks.2 a, hp a]
    have hcount : (ks.filter fun a => GoOrdered.lt a k).length = (before w nodes k).length := by
      rw [(hperm.filter _).length_eq, List.filter_map, List.length_map]
      rfl
    have h1 : ((lessKeys (search w k).2).filter fun a => GoOrdered.lt a k).length ≤ (before w nodes k).length := by
      rw [hsmall, List.length_map]; exact v.moved.length_le
    have h2 : (lessKeys (search w k).2).length =
        ((lessKeys (search w k).2).filter fun a => GoOrdered.lt a k).length +
        ((lessKeys (search w k).2).filter fun a => !GoOrdered.lt a k).length := by
      have := List.length_eq_countP_add_countP (fun a => GoOrdered.lt a k) (l := lessKeys (search w k).2)
      simpa [List.countP_eq_length_filter] using this
    omega

/-- **C137.** After every history, with every seed: a `Get`, `Set`, `Del` or `Seek` compares few keys,
and does what C01 says. -/
theorem C137_few (seed : BitVec 64) (hist : List (Op K V)) (k : K) (v : V) (it : Iter) :
    ∃ w, run (Skl.new seed) hist = .ret w ∧
      ((get w k).1 = Skl.get w k ∧ Few hist k (get w k).2) ∧
      ((set w k v).1 = Skl.set w k v ∧ Few hist k (set w k v).2) ∧
      ((del w k).1 = Skl.del w k ∧ Few hist k (del w k).2) ∧
      ((seek w it k).1 = Skl.seek w it k ∧ Few hist k (seek w it k).2) := by
  obtain ⟨w, nodes, e, r, h⟩ := run_rep seed hist
  have f := few_of_rep r h k
  refine ⟨w, e, ⟨get_fst w k, ?_⟩, ⟨set_fst w k v, ?_⟩, ⟨del_fst w k, ?_⟩, ⟨seek_fst w it k, ?_⟩⟩
  · rw [get_snd]; exact f
  · rw [set_snd]; exact f
  · rw [del_snd]; exact f
  · rw [seek_snd]; exact f

/-- Three keys set in a map with seed 0. A `Get` of the middle one. -/
example : ∃ w, run (Skl.new 0 : World Nat Nat) [.set 10 1, .set 20 2, .set 30 3] = .ret w ∧
    (get w 20).2.length ≤ 18 ∧ (get w 20).1 = .ret (some 2) := by
  obtain ⟨w, e, ⟨h1, h2⟩, _⟩ := C137_few (0 : BitVec 64) [.set 10 1, .set 20 2, .set 30 3] (20 : Nat) (0 : Nat) iterator
  refine ⟨w, e, ?_, ?_⟩
  · have := h2.total [10, 20, 30] ⟨by decide, by
      intro k
      by_cases h10 : k = 10
      · subst h10; simp [lookup]
      · by_cases h20 : k = 20
        · subst h20; simp [lookup]
        · by_cases h30 : k = 30
          · subst h30; simp [lookup]
          · simp [lookup, h10, h20, h30]⟩
    exact this
  · rw [h1]
    obtain ⟨w', nodes, e', r, h⟩ := run_rep (0 : BitVec 64) [Op.set 10 1, .set 20 2, .set (30 : Nat) (3 : Nat)]
    rw [e] at e'
    obtain rfl := Outcome.ret.inj e'
    rw [get_spec r h]
    rfl

end Verif.SklCost
