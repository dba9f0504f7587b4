import Verif.AutoCmd.Spec
/-!
# The walk
-/
namespace Verif.AutoCmd

theorem callback_cwd {fs : Fs} {p : Path} {n : String} {e : Ent} {s : St} (h : s.cwd = []) :
    (callback fs p n e s).2.cwd = [] := by
  unfold callback
  repeat' split
  all_goals simp_all

theorem walk_cwd (fs : Fs) (f : Forest) : ∀ (p : Path) (s : St), s.cwd = [] → (walk fs f p s).cwd = [] := by
  induction f with
  | nil => intro p s h; exact h
  | cons n e kids rest ihk ihr =>
    intro p s h
    simp only [walk]
    apply ihr
    have h1 := callback_cwd (fs := fs) (p := p ++ [n]) (n := n) (e := e) h
    repeat' split
    · exact h1
    · exact ihk _ _ h1
    · exact callback_cwd h1

theorem main_cwd (fs : Fs) : (main fs).cwd = [] := by
  simp only [main]
  have h1 := callback_cwd (fs := fs) (p := []) (n := ".") (e := fs.root) (s := ⟨[], []⟩) rfl
  repeat' split
  · exact h1
  · exact walk_cwd _ _ _ _ h1
  · exact callback_cwd h1

/-! ### Finding -/

theorem Forest.Dir.ne {f : Forest} {p : Path} (h : f.Dir p) : p ≠ [] := by
  induction h <;> simp_all

theorem Forest.Dir.head {f : Forest} {p : Path} (h : f.Dir p) : ∃ n q, p = n :: q ∧ n ∈ f.names := by
  induction h with
  | here _ => exact ⟨_, _, rfl, by simp [names]⟩
  | inner _ _ _ => exact ⟨_, _, rfl, by simp [names]⟩
  | next _ ih => obtain ⟨n, q, h1, h2⟩ := ih; exact ⟨n, q, h1, by simp [names, h2]⟩

theorem Forest.find_names {f : Forest} {x : String} {xs : Path} (h : x ∉ f.names) : f.find (x :: xs) = none := by
  induction f with
  | nil => rfl
  | cons n e kids rest _ ihr =>
    simp only [names, List.mem_cons, not_or] at h
    rw [find, if_neg (fun h' => h.1 h'.symm), ihr h.2]

/-- In an open tree every directory is found with its permissions. -/
theorem Forest.find_dir {f : Forest} {p : Path} (h : f.Dir p) (hk : f.Ok) (ho : f.Open) :
    ∃ e, f.find p = some e ∧ e.dir = true ∧ e.read = true ∧ e.enter = true := by
  induction h with
  | @here n e kids rest he =>
    exact ⟨e, by simp [find], he, (ho.1 he).1, (ho.1 he).2⟩
  | @inner n e kids rest p he hd ih =>
    obtain ⟨e', h1, h2⟩ := ih hk.2.2.1 ho.2.1
    refine ⟨e', ?_, h2⟩
    cases p with
    | nil => exact absurd rfl hd.ne
    | cons y ys => simp [find, he, (ho.1 he).2, h1]
  | @next n e kids rest p hd ih =>
    obtain ⟨e', h1, h2⟩ := ih hk.2.2.2 ho.2.2
    obtain ⟨m, q, rfl, hm⟩ := hd.head
    refine ⟨e', ?_, h2⟩
    have hne : n ≠ m := fun h' => hk.1 (h' ▸ hm)
    rw [find, if_neg hne, h1]

/-- A directory that is found is a directory of the tree. -/
theorem Forest.dir_of_find {f : Forest} {p : Path} {e : Ent} (h : f.find p = some e) (he : e.dir = true) : f.Dir p := by
  induction f generalizing p with
  | nil => simp [find] at h
  | cons n e' kids rest ihk ihr =>
    cases p with
    | nil => simp [find] at h
    | cons x xs =>
      rw [find] at h
      split at h
      · rename_i hn
        subst hn
        split at h
        · rename_i hx
          subst hx
          cases h
          exact .here he
        · split at h
          · rename_i h2
            simp only [Bool.and_eq_true] at h2
            exact .inner h2.1 (ihk h)
          · cases h
      · exact .next (ihr h)

/-! ### Never in vendor or .git -/

theorem skipName_false {n : String} (h : skipName n = false) : n ≠ "vendor" ∧ n ≠ ".git" := by
  simpa [skipName] using h

theorem canEnter_dir {fs : Fs} {p : Path} (h : fs.canEnter p = true) : fs.Dir p := by
  cases p with
  | nil => exact .inl rfl
  | cons x xs =>
    right
    simp only [Fs.canEnter, Fs.find] at h
    split at h
    · rename_i e he
      split at he
      · simp only [Bool.and_eq_true] at h
        exact Forest.dir_of_find he h.1
      · cases he
    · cases h

/-- What every working directory of a command satisfies. -/
def Good (fs : Fs) (q : Path) : Prop := fs.Dir q ∧ Outside q

theorem callback_good {fs : Fs} {p : Path} {n : String} {e : Ent} {s : St} (h : s.cwd = [])
    (hp : skipName n = false → Outside p) (hl : ∀ q ∈ s.log, Good fs q) :
    ∀ q ∈ (callback fs p n e s).2.log, Good fs q := by
  unfold callback
  split
  · split
    · exact hl
    · rename_i hn
      intro q hq
      simp only [h, List.nil_append, List.mem_append, List.mem_singleton] at hq
      rcases hq with hq | rfl
      · exact hl q hq
      · split
        · rename_i hc
          exact ⟨canEnter_dir hc, hp (by simpa using hn)⟩
        · exact ⟨.inl rfl, by simp [Outside]⟩
  · exact hl

theorem walk_good (fs : Fs) (f : Forest) : ∀ (p : Path) (s : St), s.cwd = [] → Outside p →
    (∀ q ∈ s.log, Good fs q) → ∀ q ∈ (walk fs f p s).log, Good fs q := by
  induction f with
  | nil => intro p s _ _ h; exact h
  | cons n e kids rest ihk ihr =>
    intro p s hs hp hl
    have hpn : skipName n = false → Outside (p ++ [n]) := fun h => by
      have := skipName_false h
      simp only [Outside, List.mem_append, List.mem_singleton, not_or]
      exact ⟨⟨hp.1, this.1.symm⟩, hp.2, this.2.symm⟩
    have h1 := callback_cwd (fs := fs) (p := p ++ [n]) (n := n) (e := e) hs
    have h2 := callback_good (fs := fs) (p := p ++ [n]) (n := n) (e := e) hs hpn hl
    have h3 : (callback fs (p ++ [n]) n e s).1 = false → e.dir = true → skipName n = false := by
      unfold callback
      intro ha hb
      rw [if_pos hb] at ha
      split at ha
      · cases ha
      · rename_i hn; simpa using hn
    simp only [walk]
    split
    · exact ihr _ _ h1 hp h2
    · rename_i hr
      simp only [Bool.or_eq_true, Bool.not_eq_true', not_or, Bool.not_eq_true, Bool.not_eq_false] at hr
      have hn := h3 hr.1 hr.2
      split
      · exact ihr _ _ (walk_cwd _ _ _ _ h1) hp (ihk _ _ h1 (hpn hn) h2)
      · exact ihr _ _ (callback_cwd h1) hp (callback_good h1 hpn h2)

theorem main_good (fs : Fs) : ∀ q ∈ (main fs).log, Good fs q := by
  have h0 : ∀ q ∈ (⟨[], []⟩ : St).log, Good fs q := by simp
  have hp : skipName "." = false → Outside [] := fun _ => by simp [Outside]
  have h1 := callback_cwd (fs := fs) (p := []) (n := ".") (e := fs.root) (s := ⟨[], []⟩) rfl
  have h2 := callback_good (fs := fs) (p := []) (n := ".") (e := fs.root) (s := ⟨[], []⟩) rfl hp h0
  simp only [main]
  repeat' split
  · exact h2
  · exact walk_good _ _ _ _ h1 (by simp [Outside]) h2
  · exact callback_good h1 hp h2

/-! ### Once in every directory of an open tree -/

/-- The directories of the tree in the order of the walk. -/
def visits : Forest → Path → List Path
  | .nil, _ => []
  | .cons n e kids rest, p =>
    (if e.dir = true ∧ skipName n = false then (p ++ [n]) :: visits kids (p ++ [n]) else []) ++ visits rest p

/-- Everything the forest at `p` has is found below `p` in the file system. -/
def At (fs : Fs) (f : Forest) (p : Path) : Prop := ∀ q, f.Dir q → fs.canEnter (p ++ q) = true ∧ fs.canRead (p ++ q) = true

theorem At.kids {fs : Fs} {n : String} {e : Ent} {kids rest : Forest} {p : Path} (h : At fs (.cons n e kids rest) p)
    (he : e.dir = true) : At fs kids (p ++ [n]) := fun q hq => by
  have := h (n :: q) (.inner he hq)
  simpa using this

theorem At.rest {fs : Fs} {n : String} {e : Ent} {kids rest : Forest} {p : Path} (h : At fs (.cons n e kids rest) p) :
    At fs rest p := fun q hq => h q (.next hq)

theorem walk_visits (fs : Fs) (f : Forest) : ∀ (p : Path) (s : St), s.cwd = [] → At fs f p →
    (walk fs f p s).log = s.log ++ visits f p := by
  induction f with
  | nil => intro p s _ _; simp [walk, visits]
  | cons n e kids rest ihk ihr =>
    intro p s hs hat
    simp only [walk]
    by_cases he : e.dir = true
    · cases hn : skipName n with
      | true =>
        have : callback fs (p ++ [n]) n e s = (true, s) := by simp [callback, he, hn]
        rw [this]
        simp only [Bool.true_or, if_true]
        rw [ihr p s hs hat.rest]
        simp [visits, hn]
      | false =>
        have hh := hat [n] (.here he)
        have : callback fs (p ++ [n]) n e s = (false, ⟨[], s.log ++ [p ++ [n]]⟩) := by
          simp [callback, he, hn, hs, hh.1]
        rw [this]
        simp only [he, Bool.not_true, Bool.or_false, Bool.false_eq_true, if_false, List.nil_append, hh.2, if_true]
        rw [ihr p _ (walk_cwd _ _ _ _ rfl) hat.rest, ihk _ _ rfl (hat.kids he)]
        simp [visits, he, hn]
    · have : callback fs (p ++ [n]) n e s = (false, s) := by simp [callback, he]
      rw [this]
      simp only [he, Bool.not_false, Bool.or_true, if_true]
      rw [ihr p s hs hat.rest]
      simp [visits, he]

theorem mem_visits (f : Forest) (hk : f.Ok) : ∀ (p q : Path), q ∈ visits f p ↔ ∃ r, q = p ++ r ∧ f.Dir r ∧ Outside r := by
  induction f with
  | nil =>
    intro p q
    simp only [visits, List.not_mem_nil, false_iff]
    rintro ⟨r, _, h, _⟩
    cases h
  | cons n e kids rest ihk ihr =>
    intro p q
    have ihk := ihk hk.2.2.1
    have ihr := ihr hk.2.2.2
    simp only [visits, List.mem_append, ihr]
    constructor
    · rintro (h | ⟨r, rfl, h1, h2⟩)
      · split at h
        · rename_i hc
          have hn := skipName_false hc.2
          rcases List.mem_cons.1 h with rfl | h
          · exact ⟨[n], rfl, .here hc.1, by simp [Outside, hn.1.symm, hn.2.symm]⟩
          · obtain ⟨r, rfl, h1, h2⟩ := (ihk _ _).1 h
            exact ⟨n :: r, by simp, .inner hc.1 h1, by
              simp only [Outside, List.mem_cons, not_or]
              exact ⟨⟨hn.1.symm, h2.1⟩, hn.2.symm, h2.2⟩⟩
        · cases h
      · exact ⟨r, rfl, .next h1, h2⟩
    · rintro ⟨r, rfl, h1, h2⟩
      cases h1 with
      | here he =>
        left
        have : skipName n = false := by
          simp only [Outside, List.mem_singleton] at h2
          simp [skipName, Ne.symm h2.1, Ne.symm h2.2]
        simp [he, this]
      | @inner _ _ _ _ r he hd =>
        left
        simp only [Outside, List.mem_cons, not_or] at h2
        have : skipName n = false := by simp [skipName, Ne.symm h2.1.1, Ne.symm h2.2.1]
        rw [if_pos ⟨he, this⟩]
        exact List.mem_cons_of_mem _ ((ihk _ _).2 ⟨r, by simp, hd, h2.1.2, h2.2.2⟩)
      | next hd => exact .inr ⟨r, rfl, hd, h2⟩

theorem visits_nodup (f : Forest) (hk : f.Ok) : ∀ p, (visits f p).Nodup := by
  induction f with
  | nil => intro p; simp [visits]
  | cons n e kids rest ihk ihr =>
    intro p
    simp only [visits]
    refine List.nodup_append.2 ⟨?_, ihr hk.2.2.2 p, ?_⟩
    · split
      · refine List.nodup_cons.2 ⟨?_, ihk hk.2.2.1 _⟩
        intro h
        obtain ⟨r, h1, h2, _⟩ := (mem_visits kids hk.2.2.1 _ _).1 h
        exact h2.ne (by simpa using h1)
      · simp
    · intro a ha b hb hab
      subst hab
      obtain ⟨r, rfl, h1, _⟩ := (mem_visits rest hk.2.2.2 _ _).1 hb
      obtain ⟨m, q, rfl, hm⟩ := h1.head
      split at ha
      · rcases List.mem_cons.1 ha with h | h
        · simp only [List.append_cancel_left_eq, List.cons.injEq] at h
          exact hk.1 (h.1 ▸ hm)
        · obtain ⟨r', h2, _, _⟩ := (mem_visits kids hk.2.2.1 _ _).1 h
          rw [List.append_assoc, List.append_cancel_left_eq] at h2
          simp only [List.cons_append, List.nil_append, List.cons.injEq] at h2
          exact hk.1 (h2.1 ▸ hm)
      · cases ha

/-- No later path leads to what contains an earlier one. -/
theorem visits_order (f : Forest) (hk : f.Ok) : ∀ p, (visits f p).Pairwise (fun a b => ¬ b <+: a) := by
  induction f with
  | nil => intro p; simp [visits]
  | cons n e kids rest ihk ihr =>
    intro p
    simp only [visits]
    refine List.pairwise_append.2 ⟨?_, ihr hk.2.2.2 p, ?_⟩
    · split
      · refine List.pairwise_cons.2 ⟨?_, ihk hk.2.2.1 _⟩
        intro q hq hpre
        obtain ⟨r, rfl, h2, _⟩ := (mem_visits kids hk.2.2.1 _ _).1 hq
        have h3 := hpre.length_le
        have h4 := List.length_pos_iff.2 h2.ne
        simp only [List.length_append] at h3
        omega
      · simp
    · intro a ha b hb hpre
      obtain ⟨r, rfl, h1, _⟩ := (mem_visits rest hk.2.2.2 _ _).1 hb
      obtain ⟨m, q, rfl, hm⟩ := h1.head
      have key : ∃ t, a = p ++ n :: t := by
        split at ha
        · rcases List.mem_cons.1 ha with h | h
          · exact ⟨[], h⟩
          · obtain ⟨r', h2, _, _⟩ := (mem_visits kids hk.2.2.1 _ _).1 h
            exact ⟨r', by simp [h2]⟩
        · cases ha
      obtain ⟨t, rfl⟩ := key
      rw [List.prefix_append_right_inj, List.cons_prefix_cons] at hpre
      exact hk.1 (hpre.1 ▸ hm)

theorem at_root {fs : Fs} (hk : fs.Ok) (ho : fs.Open) : At fs fs.kids [] := by
  intro q hq
  obtain ⟨e, h1, h2, h3, h4⟩ := Forest.find_dir hq hk.kids ho.kids
  cases q with
  | nil => exact absurd rfl hq.ne
  | cons x xs => simp [Fs.canEnter, Fs.canRead, Fs.find, ho.enter, h1, h2, h3, h4]

theorem main_visits {fs : Fs} (hk : fs.Ok) (ho : fs.Open) : (main fs).log = [] :: visits fs.kids [] := by
  have hc : callback fs [] "." fs.root ⟨[], []⟩ = (false, ⟨[], [[]]⟩) := by
    simp [callback, hk.dir, skipName, Fs.canEnter, Fs.find]
  simp only [main, hc, hk.dir, Bool.not_true, Bool.or_false, Bool.false_eq_true, if_false]
  have hr : fs.canRead [] = true := by simp [Fs.canRead, Fs.find, hk.dir, ho.read]
  rw [if_pos hr, walk_visits _ _ _ _ rfl (at_root hk ho)]
  rfl

/-! ### Exactly what runs, whatever the permissions -/

/-- The working directories of the commands in the order of the walk. `reach` says whether the directory that holds
the entries, and all on the way to it, may be entered. -/
def runs : Forest → Path → Bool → List Path
  | .nil, _, _ => []
  | .cons n e kids rest, p, reach =>
    (if e.dir = true ∧ skipName n = false then
      (if reach && e.enter then p ++ [n] else []) ::
        (if reach && e.read then runs kids (p ++ [n]) (reach && e.enter)
          else [if reach && e.enter then p ++ [n] else []])
      else []) ++ runs rest p reach

/-- What the forest at `p` has is what the system finds below `p`. -/
def AtG (fs : Fs) (f : Forest) (p : Path) (reach : Bool) : Prop := ∀ x xs, x ∈ f.names →
  fs.find (p ++ x :: xs) = if reach then f.find (x :: xs) else none

theorem AtG.kids {fs : Fs} {n : String} {e : Ent} {kids rest : Forest} {p : Path} {reach : Bool}
    (h : AtG fs (.cons n e kids rest) p reach) (he : e.dir = true) : AtG fs kids (p ++ [n]) (reach && e.enter) := by
  intro x xs _
  have := h n (x :: xs) (by simp [Forest.names])
  simp only [Forest.find, if_true, he, Bool.true_and] at this
  rw [List.append_assoc, List.singleton_append, this]
  cases reach <;> simp

theorem AtG.rest {fs : Fs} {n : String} {e : Ent} {kids rest : Forest} {p : Path} {reach : Bool}
    (h : AtG fs (.cons n e kids rest) p reach) (hn : n ∉ rest.names) : AtG fs rest p reach := by
  intro x xs hx
  have := h x xs (by simp [Forest.names, hx])
  have hne : n ≠ x := fun h' => hn (h' ▸ hx)
  rw [Forest.find, if_neg hne] at this
  exact this

theorem AtG.enter {fs : Fs} {n : String} {e : Ent} {kids rest : Forest} {p : Path} {reach : Bool}
    (h : AtG fs (.cons n e kids rest) p reach) (he : e.dir = true) : fs.canEnter (p ++ [n]) = (reach && e.enter) := by
  have := h n [] (by simp [Forest.names])
  simp only [Forest.find, if_true] at this
  rw [Fs.canEnter, this]
  cases reach <;> simp [he]

theorem AtG.read {fs : Fs} {n : String} {e : Ent} {kids rest : Forest} {p : Path} {reach : Bool}
    (h : AtG fs (.cons n e kids rest) p reach) (he : e.dir = true) : fs.canRead (p ++ [n]) = (reach && e.read) := by
  have := h n [] (by simp [Forest.names])
  simp only [Forest.find, if_true] at this
  rw [Fs.canRead, this]
  cases reach <;> simp [he]

theorem walk_runs (fs : Fs) (f : Forest) : ∀ (p : Path) (reach : Bool) (s : St), s.cwd = [] → f.Ok → AtG fs f p reach →
    (walk fs f p s).log = s.log ++ runs f p reach := by
  induction f with
  | nil => intro p _ s _ _ _; simp [walk, runs]
  | cons n e kids rest ihk ihr =>
    intro p reach s hs hk hat
    have hr := hat.rest hk.1
    simp only [walk]
    by_cases he : e.dir = true
    · cases hn : skipName n with
      | true =>
        have : callback fs (p ++ [n]) n e s = (true, s) := by simp [callback, he, hn]
        rw [this]
        simp only [Bool.true_or, if_true]
        rw [ihr p reach s hs hk.2.2.2 hr]
        simp [runs, hn]
      | false =>
        have hc : ∀ s : St, s.cwd = [] → callback fs (p ++ [n]) n e s =
            (false, ⟨[], s.log ++ [if reach && e.enter then p ++ [n] else []]⟩) := by
          intro s hs
          have := hat.enter he
          simp only [callback, he, hn, hs, this, if_true, Bool.false_eq_true, if_false, List.nil_append]
        rw [hc s hs]
        have hrd := hat.read he
        simp only [he, Bool.not_true, Bool.or_false, Bool.false_eq_true, if_false, List.nil_append, hrd]
        by_cases h2 : (reach && e.read) = true
        · rw [if_pos h2, ihr p reach _ (walk_cwd _ _ _ _ rfl) hk.2.2.2 hr, ihk _ _ _ rfl hk.2.2.1 (hat.kids he)]
          simp only [runs, he, hn, and_self, if_true, if_pos h2, List.append_assoc, List.cons_append, List.nil_append]
        · rw [if_neg h2, hc _ rfl, ihr p reach _ rfl hk.2.2.2 hr]
          simp only [runs, he, hn, and_self, if_true, if_neg h2, List.append_assoc, List.cons_append, List.nil_append]
    · have : callback fs (p ++ [n]) n e s = (false, s) := by simp [callback, he]
      rw [this]
      simp only [he, Bool.not_false, Bool.or_true, if_true]
      rw [ihr p reach s hs hk.2.2.2 hr]
      simp [runs, he]

theorem Forest.Clear.ne {f : Forest} {p : Path} {e : Ent} (h : f.Clear p e) : p ≠ [] := by
  induction h <;> simp_all

theorem Forest.Clear.head {f : Forest} {p : Path} {e : Ent} (h : f.Clear p e) : ∃ n q, p = n :: q ∧ n ∈ f.names := by
  induction h with
  | here _ => exact ⟨_, _, rfl, by simp [names]⟩
  | inner _ _ _ _ _ => exact ⟨_, _, rfl, by simp [names]⟩
  | next _ ih => obtain ⟨n, q, h1, h2⟩ := ih; exact ⟨n, q, h1, by simp [names, h2]⟩

/-- A command runs in the start directory or in a clear one. -/
theorem mem_runs (f : Forest) : ∀ (p : Path) (reach : Bool) (x : Path), x ∈ runs f p reach →
    x = [] ∨ reach = true ∧ ∃ q e, x = p ++ q ∧ f.Clear q e ∧ Outside q := by
  induction f with
  | nil => intro p reach x h; cases h
  | cons n e kids rest ihk ihr =>
    intro p reach x h
    rcases List.mem_append.1 h with h | h
    · split at h
      · rename_i hc
        have hn := skipName_false hc.2
        have own : x = (if reach && e.enter then p ++ [n] else []) →
            x = [] ∨ reach = true ∧ ∃ q e', x = p ++ q ∧ (Forest.cons n e kids rest).Clear q e' ∧ Outside q := by
          intro hx
          split at hx
          · rename_i hre
            simp only [Bool.and_eq_true] at hre
            exact .inr ⟨hre.1, [n], e, hx, .here hc.1 hre.2, by simp [Outside, hn.1.symm, hn.2.symm]⟩
          · exact .inl hx
        rcases List.mem_cons.1 h with h | h
        · exact own h
        · split at h
          · rename_i hrd
            simp only [Bool.and_eq_true] at hrd
            rcases ihk _ _ _ h with h | ⟨hre, q, e', rfl, h1, h2⟩
            · exact .inl h
            · simp only [Bool.and_eq_true] at hre
              refine .inr ⟨hre.1, n :: q, e', by simp, .inner hc.1 hrd.2 hre.2 h1, ?_⟩
              simp only [Outside, List.mem_cons, not_or]
              exact ⟨⟨hn.1.symm, h2.1⟩, hn.2.symm, h2.2⟩
          · exact own (List.mem_singleton.1 h)
      · cases h
    · rcases ihr _ _ _ h with h | ⟨hre, q, e', rfl, h1, h2⟩
      · exact .inl h
      · exact .inr ⟨hre, q, e', rfl, .next h1, h2⟩

theorem count_runs {f : Forest} {q : Path} {e : Ent} (h : f.Clear q e) : ∀ (p : Path), f.Ok → Outside q →
    (runs f p true).count (p ++ q) = if e.read then 1 else 2 := by
  induction h with
  | @here n e kids rest hd hx =>
    intro p hk ho
    have hn : skipName n = false := by
      simp only [Outside, List.mem_singleton] at ho
      simp [skipName, Ne.symm ho.1, Ne.symm ho.2]
    have h1 : (runs rest p true).count (p ++ [n]) = 0 := by
      refine List.count_eq_zero.2 fun hm => ?_
      rcases mem_runs _ _ _ _ hm with h | ⟨_, q, e', h, hc, _⟩
      · simp at h
      · obtain ⟨m, q', rfl, hm⟩ := hc.head
        simp only [List.append_cancel_left_eq, List.cons.injEq] at h
        exact hk.1 (h.1 ▸ hm)
    have h2 : (runs kids (p ++ [n]) true).count (p ++ [n]) = 0 := by
      refine List.count_eq_zero.2 fun hm => ?_
      rcases mem_runs _ _ _ _ hm with h | ⟨_, q, e', h, hc, _⟩
      · simp at h
      · exact hc.ne (by simpa using h)
    cases hr : e.read <;> simp [runs, hd, hn, hx, hr, h1, h2]
  | @inner n e kids rest q e' hd hr hx hc ih =>
    intro p hk ho
    simp only [Outside, List.mem_cons, not_or] at ho
    have hn : skipName n = false := by simp [skipName, Ne.symm ho.1.1, Ne.symm ho.2.1]
    have h1 : (runs rest p true).count (p ++ n :: q) = 0 := by
      refine List.count_eq_zero.2 fun hm => ?_
      rcases mem_runs _ _ _ _ hm with h | ⟨_, q, e', h, hc, _⟩
      · simp at h
      · obtain ⟨m, q', rfl, hm⟩ := hc.head
        simp only [List.append_cancel_left_eq, List.cons.injEq] at h
        exact hk.1 (h.1 ▸ hm)
    have ih := ih (p ++ [n]) hk.2.2.1 ⟨ho.1.2, ho.2.2⟩
    rw [List.append_assoc, List.singleton_append] at ih
    have hne : p ++ [n] ≠ p ++ n :: q := by simpa using hc.ne.symm
    simp [runs, hd, hn, hx, hr, h1, ih, List.count_cons, hc.ne, Ne.symm hc.ne]
  | @next n e kids rest q e' hc ih =>
    intro p hk ho
    have h1 : ∀ x ∈ runs (.cons n e kids .nil) p true, x ≠ p ++ q := by
      intro x hm hx
      subst hx
      obtain ⟨m, q', rfl, hm'⟩ := hc.head
      rcases mem_runs _ _ _ _ hm with h | ⟨_, r, e', h, hc', _⟩
      · simp at h
      · obtain ⟨m', q'', rfl, hm''⟩ := hc'.head
        simp only [List.append_cancel_left_eq, List.cons.injEq] at h
        simp only [Forest.names, List.mem_singleton] at hm''
        exact hk.1 (hm'' ▸ h.1 ▸ hm')
    have h2 : runs (.cons n e kids rest) p true = runs (.cons n e kids .nil) p true ++ runs rest p true := by
      simp [runs]
    rw [h2, List.count_append, List.count_eq_zero.2 (fun hm => h1 _ hm rfl), ih p hk.2.2.2 ho, Nat.zero_add]

theorem atg_root (fs : Fs) : AtG fs fs.kids [] fs.root.enter := by
  intro x xs _
  rfl

/-- All runs of the program. -/
theorem main_runs {fs : Fs} (hk : fs.Ok) : (main fs).log =
    [] :: if fs.root.read then runs fs.kids [] fs.root.enter else [[]] := by
  have hc : ∀ l, callback fs [] "." fs.root ⟨[], l⟩ = (false, ⟨[], l ++ [[]]⟩) := by
    simp [callback, hk.dir, skipName]
  simp only [main, hc, hk.dir, Bool.not_true, Bool.or_false, Bool.false_eq_true, if_false]
  have hr : fs.canRead [] = fs.root.read := by simp [Fs.canRead, Fs.find, hk.dir]
  rw [hr]
  split
  · rw [walk_runs _ _ _ _ _ rfl hk.kids (atg_root fs)]
    rfl
  · rfl

end Verif.AutoCmd
