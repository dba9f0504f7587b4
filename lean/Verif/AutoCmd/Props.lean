import Verif.AutoCmd.Lemmas
/-!
# C101 and C102: what autotidy and autoupdate run, and where
-/
namespace Verif.AutoCmd

/-- The full statement of C101: the command runs once in every directory outside vendor and .git. -/
def C101_full : Prop := ∀ fs : Fs, fs.Ok →
  (main fs).log.Nodup ∧ ∀ q, q ∈ (main fs).log ↔ fs.Dir q ∧ Outside q

/-- **C101, what does hold**: so it is if all directories may be read and entered; parents come before what they
contain. Missing from the full statement: directories without these permissions. -/
theorem C101_partial (fs : Fs) (hk : fs.Ok) (ho : fs.Open) :
    (main fs).log.Nodup ∧ (∀ q, q ∈ (main fs).log ↔ fs.Dir q ∧ Outside q) ∧
      (main fs).log.Pairwise (fun a b => ¬ b <+: a) := by
  rw [main_visits hk ho]
  refine ⟨?_, ?_, List.pairwise_cons.2 ⟨fun q hq h => ?_, visits_order _ hk.kids _⟩⟩
  · refine List.nodup_cons.2 ⟨fun h => ?_, visits_nodup _ hk.kids _⟩
    obtain ⟨r, h1, h2, _⟩ := (mem_visits fs.kids hk.kids _ _).1 h
    exact h2.ne (by simpa using h1.symm)
  · intro q
    rw [List.mem_cons, mem_visits _ hk.kids]
    constructor
    · rintro (rfl | ⟨r, rfl, h1, h2⟩)
      · exact ⟨.inl rfl, by simp [Outside]⟩
      · exact ⟨.inr h1, h2⟩
    · rintro ⟨rfl | h1, h2⟩
      · exact .inl rfl
      · exact .inr ⟨q, rfl, h1, h2⟩
  · obtain ⟨r, h1, h2, _⟩ := (mem_visits fs.kids hk.kids _ _).1 hq
    rw [List.prefix_nil.1 h] at h1
    exact h2.ne (by simpa using h1.symm)

/-- A directory that may be entered but not read. -/
def unreadable : Fs := ⟨⟨true, true, true⟩, .cons "a" ⟨true, false, true⟩ .nil .nil⟩

/-- A directory that may be read but not entered, with a directory in it. -/
def closed : Fs := ⟨⟨true, true, true⟩, .cons "a" ⟨true, true, false⟩ (.cons "b" ⟨true, true, true⟩ .nil .nil) .nil⟩

/-- False of the code: in a directory that cannot be read the command runs twice; for a directory that cannot be
entered it runs in the start directory, and for a directory in it twice more. -/
theorem C101_refuted : ¬ C101_full ∧ (main unreadable).log = [[], ["a"], ["a"]] ∧ (main closed).log = [[], [], [], []] := by
  refine ⟨fun h => ?_, by decide, by decide⟩
  have := (h unreadable ⟨rfl, by simp [unreadable, Forest.Ok, Forest.names]⟩).1
  rw [show (main unreadable).log = [[], ["a"], ["a"]] by decide] at this
  simp at this

/-- Whatever the permissions: below the start directory the command runs in the directories that may be entered, are
reached through directories that may be read and entered, and are outside vendor and .git: once in each, or twice if it
cannot be read. In no other. -/
theorem C101_count_partial (fs : Fs) (hk : fs.Ok) (p : Path) (hp : p ≠ []) :
    (∀ e, fs.Clear p e → Outside p → (main fs).log.count p = if e.read then 1 else 2) ∧
    (p ∈ (main fs).log → Outside p ∧ ∃ e, fs.Clear p e) := by
  rw [main_runs hk]
  constructor
  · rintro e ⟨h1, h2, h3⟩ ho
    have := count_runs h3 [] hk.kids ho
    rw [List.nil_append] at this
    rw [h1, h2, if_pos rfl, List.count_cons, this]
    simp [hp]
  · intro h
    rcases List.mem_cons.1 h with h | h
    · exact absurd h hp
    · split at h
      · rename_i hr
        rcases mem_runs _ _ _ _ h with h | ⟨h1, q, e, rfl, h2, h3⟩
        · exact absurd h hp
        · exact ⟨h3, e, hr, h1, h2⟩
      · exact absurd (List.mem_singleton.1 h) hp

/-- A directory behind one that cannot be read is not affected by it. -/
example : (⟨⟨true, true, true⟩, .cons "a" ⟨true, false, true⟩ .nil (.cons "b" ⟨true, true, true⟩ .nil .nil)⟩ : Fs).Clear ["b"]
    ⟨true, true, true⟩ := ⟨rfl, rfl, .next (.here rfl rfl)⟩

/-- **C102.** Whatever the permissions: the command runs in directories of the tree only, never in or below a
directory named vendor or .git, and the process ends where it was started. -/
theorem C102_outside (fs : Fs) : (∀ q ∈ (main fs).log, fs.Dir q ∧ Outside q) ∧ (main fs).cwd = [] :=
  ⟨main_good fs, main_cwd fs⟩

/-- A tree with a module, its vendor directory, a file named vendor and a nested module. -/
def sample : Fs := ⟨⟨true, true, true⟩,
  .cons ".git" ⟨true, true, true⟩ (.cons "hooks" ⟨true, true, true⟩ .nil .nil)
  (.cons "cmd" ⟨true, true, true⟩ (.cons "vendor" ⟨false, true, true⟩ .nil (.cons "x" ⟨true, true, true⟩ .nil .nil))
  (.cons "vendor" ⟨true, true, true⟩ (.cons "y" ⟨true, true, true⟩ .nil .nil) .nil))⟩

example : sample.Ok ∧ sample.Open ∧ (main sample).log = [[], ["cmd"], ["cmd", "x"]] :=
  ⟨⟨rfl, by simp [sample, Forest.Ok, Forest.names]⟩, ⟨rfl, rfl, by simp [sample, Forest.Open]⟩, by decide⟩

end Verif.AutoCmd
