import Verif.UserStore.Spec
import Verif.PassHash.Props
import Verif.SyncKey.Props
import Verif.MapFlag.Lemmas
import Verif.Conc.Later
/-!
# Lemmas for C182
-/
namespace Verif.UserStore
open Verif.Conc Verif.PassHash Verif.Go
open Verif.SyncMap (Call Res)

variable {U : Type} [DecidableEq U]

/-- `==` of the users. -/
abbrev same (a b : U) : Bool := decide (a = b)

/-- The call changes what is stored under `u`. -/
def Writes (u : U) : Call U Bytes → Prop
  | .set k _ => k = u
  | .delete k => k = u
  | .clear => True
  | _ => False

/-- What it leaves there. -/
def left : Call U Bytes → Option Bytes
  | .set _ v => some v
  | _ => none

/-- What is stored under `u` is decided by the last call that changes it. -/
def Decided (u : U) (S : List (Nat × Call U Bytes × Res U Bytes)) (hist : List (SyncAny.Op U Bytes)) : Prop :=
  (SyncAny.lookup same hist u = none ∧ ∀ e ∈ S, ¬ Writes u e.2.1) ∨
    ∃ e ∈ S, Writes u e.2.1 ∧ SyncAny.lookup same hist u = left e.2.1 ∧ ∀ e' ∈ S, Writes u e'.2.1 → e' = e ∨ Before S e' e

theorem last_write (u : U) {S : List (Nat × Call U Bytes × Res U Bytes)} {hist} (l : Legal (SyncKey.histObj same) S hist) : Decided u S hist := by
  induction l with
  | nil => exact .inl ⟨rfl, by simp⟩
  | @snoc S s s' id c r l st ih =>
    have keep : SyncAny.lookup same s' u = SyncAny.lookup same s u → ¬ Writes u c → Decided u (S ++ [(id, c, r)]) s' := fun e nw => by
      rcases ih with ⟨h1, h2⟩ | ⟨e, he, h1, h2, h3⟩
      · refine .inl ⟨e.trans h1, fun e he => ?_⟩
        rcases List.mem_append.1 he with he | he
        · exact h2 e he
        · cases List.mem_singleton.1 he; exact nw
      · refine .inr ⟨e, List.mem_append_left _ he, h1, by rw [← h2]; assumption, fun e' he' hw => ?_⟩
        rcases List.mem_append.1 he' with he' | he'
        · exact (h3 e' he' hw).imp_right (·.mono _)
        · cases List.mem_singleton.1 he'; exact absurd hw nw
    have new : Writes u c → SyncAny.lookup same s' u = left c → Decided u (S ++ [(id, c, r)]) s' := fun hw e => by
      refine .inr ⟨(id, c, r), by simp, hw, e, fun e' he' _ => ?_⟩
      rcases List.mem_append.1 he' with he' | he'
      · exact .inr (.last he' _)
      · exact .inl (List.mem_singleton.1 he')
    cases c with
    | get k => exact keep (by rw [st.2]) _root_.id
    | has k => exact keep (by rw [st.2]) _root_.id
    | size => exact keep (by rw [st.2]) _root_.id
    | keys => exact keep (by rw [st.2]) _root_.id
    | values => exact keep (by rw [st.2]) _root_.id
    | clear => exact new trivial (by rw [st.2, MapFlag.lookup_snoc]; rfl)
    | set k v =>
      by_cases hk : k = u
      · exact new hk (by rw [st.2, MapFlag.lookup_snoc]; simp [same, hk, left])
      · exact keep (by rw [st.2, MapFlag.lookup_snoc]; simp [same, Ne.symm hk]) hk
    | delete k =>
      by_cases hk : k = u
      · exact new hk (by rw [st.2, MapFlag.lookup_snoc]; simp [same, hk, left])
      · exact keep (by rw [st.2, MapFlag.lookup_snoc]; simp [same, Ne.symm hk]) hk

/-- Of different entries, one that comes before `y` is in the part before `y`. -/
theorem mem_front {α : Type} {S1 S2 : List α} {x y : α} (nd : (S1 ++ y :: S2).Nodup) (h : Before (S1 ++ y :: S2) x y) : x ∈ S1 := by
  obtain ⟨a, b, c, e⟩ := h
  have e' : S1 ++ y :: S2 = (a ++ x :: b) ++ y :: c := by simp [e]
  have hy1 : y ∉ S1 := fun hm => (List.nodup_append.1 nd).2.2 y hm y (by simp) rfl
  have hy2 : y ∉ a ++ x :: b := fun hm => (List.nodup_append.1 (e' ▸ nd)).2.2 y hm y (by simp) rfl
  have : S1 = a ++ x :: b := by
    rcases List.append_eq_append_iff.1 e' with ⟨t, h1, h2⟩ | ⟨t, h1, h2⟩
    · cases t with
      | nil => simpa using h1.symm
      | cons z t => simp at h2; exact absurd (by rw [h1, ← h2.1]; simp) hy2
    · cases t with
      | nil => simpa using h1
      | cons z t => simp at h2; exact absurd (by rw [h1, ← h2.1]; simp) hy1
  rw [this]; simp

/-- Two different entries do not come before each other. -/
theorem not_both {α : Type} {S : List α} {x y : α} (nd : S.Nodup) (h : Before S x y) (h' : Before S y x) : False := by
  obtain ⟨a, b, c, e⟩ := h
  have e' : S = (a ++ x :: b) ++ y :: c := by simp [e]
  have hx : y ∈ a := mem_front (S2 := b ++ y :: c) (e ▸ nd) (e ▸ h')
  exact (List.nodup_append.1 (e' ▸ nd)).2.2 y (by simp [hx]) y (by simp) rfl

omit [DecidableEq U] in
theorem writes_of_changes {K : Kdf} {u : U} {q : Req U} {c} (ha : asks K q = some c) (hc : Changes u q) : Writes u c := by
  cases q with
  | login => exact hc.elim
  | remove u' => cases ha; exact hc
  | setPassword u' pw level rnd =>
    simp only [asks] at ha
    split at ha
    · cases ha; exact hc
    · cases ha

omit [DecidableEq U] in
theorem changes_of_writes {K : Kdf} {u : U} {q : Req U} {c} (ha : asks K q = some c) (hc : Writes u c) : Changes u q := by
  cases q with
  | login => cases ha; exact hc.elim
  | remove u' => cases ha; exact hc
  | setPassword u' pw level rnd =>
    simp only [asks] at ha
    split at ha
    · cases ha; exact hc
    · cases ha

/-- An empty record is no record. -/
theorem verify_nil (K : Kdf) (pw : Bytes) : verify K pw (.of []) = .ret (some .invalidPassHash) := rfl

omit [DecidableEq U] in
/-- A new password that gets to the map has a key, and is stored with it. -/
theorem stored {K : Kdf} (hK : ∀ p s t m th l, (K p s t m th l).length = l) {u : U} {pw' : Bytes} {level : Int} {rnd : Rand} {c}
    (ha : asks K (.setPassword u pw' level rnd) = some c) (hs : (rnd 16).1.length = 16) :
    ∃ k, derive K (UInt8.ofNat (level - 1).toNat) pw' (rnd 16).1 = some k ∧ k.length = 32 ∧ c = .set u (record (UInt8.ofNat (level - 1).toNat) (rnd 16).1 k) := by
  simp only [asks] at ha
  split at ha
  · rename_i h hh
    cases ha
    have hl : 1 ≤ level ∧ level ≤ 4 := by
      by_contra hn
      rw [C70_bad_level K rnd pw' level hn] at hh
      cases hh
    have hr : rnd 16 = ((rnd 16).1, 16, false) := by
      by_contra hn
      have : (rnd 16).2.2 = true ∨ (rnd 16).2.1 ≠ 16 := by
        by_contra h'
        push Not at h'
        refine hn (Prod.ext rfl (Prod.ext h'.2 ?_))
        simpa using h'.1
      rw [C70_bad_rand K rnd pw' level hl this] at hh
      cases hh
    obtain ⟨k, h1, h2, h3⟩ := hashPw_eq hK hr hs pw' hl
    rw [h3] at hh
    cases hh
    exact ⟨k, h1, h2, rfl⟩
  · cases ha

omit [DecidableEq U] in
/-- The answer to a login that finds what the change left. -/
theorem decides {K : Kdf} (hK : ∀ p s t m th l, (K p s t m th l).length = l) {u : U} {q : Req U} {c} (ha : asks K q = some c) (hc : Changes u q)
    (hf : ∀ u pw level rnd, q = .setPassword u pw level rnd → (rnd 16).1.length = 16) (pw : Bytes) :
    ∃ e, verify K pw (.of ((left c).getD [])) = .ret e ∧ Decides K pw q e := by
  cases q with
  | login => exact hc.elim
  | remove u' => cases ha; exact ⟨_, verify_nil K pw, rfl⟩
  | setPassword u' pw' level rnd =>
    have hs := hf _ _ _ _ rfl
    obtain ⟨k, h1, h2, rfl⟩ := stored hK ha hs
    have hv := verify_record K pw (s := .of (record (UInt8.ofNat (level - 1).toNat) (rnd 16).1 k)) (prm := UInt8.ofNat (level - 1).toNat) (slt := (rnd 16).1) (hsh := k)
      ⟨[], by simp [Slice.of, Slice.bytes], by rw [hs, h2]; norm_num⟩
    refine ⟨_, hv, ?_⟩
    obtain ⟨k2, hk2⟩ : ∃ k2, derive K (UInt8.ofNat (level - 1).toNat) pw (rnd 16).1 = some k2 := by
      unfold derive at h1 ⊢
      cases hp : params (UInt8.ofNat (level - 1).toNat).toNat with
      | none => rw [hp] at h1; cases h1
      | some t => exact ⟨_, rfl⟩
    rw [hk2]
    refine ⟨fun ⟨k3, e1, e2⟩ => ?_, fun hn => ?_⟩
    · rw [h1] at e1
      rw [hk2] at e2
      cases e1; cases e2
      exact if_pos rfl
    · exact if_neg fun (e : k2 = k) => hn ⟨k, h1, e ▸ hk2⟩

omit [DecidableEq U] in
/-- A password that was stored has the key it was stored with. -/
theorem sameKey_self {K : Kdf} (hK : ∀ p s t m th l, (K p s t m th l).length = l) {u : U} {pw : Bytes} {level : Int} {rnd : Rand} {c}
    (ha : asks K (.setPassword u pw level rnd) = some c) (hs : (rnd 16).1.length = 16) : SameKey K level rnd pw pw := by
  obtain ⟨k, h1, -⟩ := stored hK ha hs
  exact ⟨k, h1, h1⟩

/-- The answer to a login is decided by a change that may be the last one, or there was none before. -/
theorem latest {K : Kdf} (hK : ∀ p s t m th l, (K p s t m th l).length = l) {req : Nat → Req U} (hf : Fills req) {h : List (Event (Call U Bytes) (Res U Bytes))}
    (hl : Linearizable (SyncKey.histObj same) h) (sv : Serves K req h) {i : Nat} {u : U} {pw : Bytes} (hi : req i = .login u pw) {r : Res U Bytes} (hr : .ret i r ∈ h) :
    ∃ e, answers K (req i) r = .ret e ∧
      ((∃ p, MayBeLast req h u i p ∧ Decides K pw (req p) e) ∨
        (e = some .invalidPassHash ∧ ∀ p, Changes u (req p) → ¬ ∃ r c, Before h (.ret p r) (.inv i c))) := by
  obtain ⟨S, hist, lin⟩ := hl
  obtain ⟨c, hm⟩ := lin.returned _ _ hr
  have hc := sv _ _ (lin.invoked _ hm)
  rw [hi] at hc
  cases hc
  have nd : S.Nodup := .of_map _ lin.once
  obtain ⟨S1, S2, eS⟩ := List.append_of_mem hm
  have e' : S = (S1 ++ [(i, .get u, r)]) ++ S2 := by simp [eS]
  obtain ⟨_, l1⟩ := RW.legal_split (e' ▸ lin.legal)
  obtain ⟨hist1, l2, st, -⟩ := RW.legal_last l1
  have inS : ∀ q, Changes u (req q) → (∃ r c, Before h (.ret q r) (.inv i c)) → ∃ e ∈ S1, e.1 = q ∧ Writes u e.2.1 := by
    rintro q hq ⟨r', c', hb⟩
    obtain ⟨cq, hmq⟩ := lin.returned _ _ hb.mem.1
    have := lin.realtime _ hmq _ hm r' c' hb
    exact ⟨_, mem_front (S2 := S2) (eS ▸ nd) (eS ▸ this), rfl, writes_of_changes (sv _ _ (lin.invoked _ hmq)) hq⟩
  have ans : answers K (req i) r = verify K pw (.of ((SyncAny.lookup same hist1 u).getD [])) := by rw [hi, st]; rfl
  rw [ans]
  rcases last_write u l2 with ⟨h1, h2⟩ | ⟨e, he, h1, h2, h3⟩
  · rw [h1]
    refine ⟨_, verify_nil K pw, .inr ⟨rfl, fun p hp hb => ?_⟩⟩
    obtain ⟨e, he, -, hw⟩ := inS p hp hb
    exact h2 e he hw
  · have heS : e ∈ S := by rw [eS]; simp [he]
    have ha := sv _ _ (lin.invoked _ heS)
    have hch := changes_of_writes ha h1
    obtain ⟨e0, h4, h5⟩ := decides hK ha hch (fun u pw level rnd => hf _ u pw level rnd) pw
    rw [h2]
    refine ⟨e0, h4, .inl ⟨e.1, ⟨hch, ⟨_, lin.invoked _ heS⟩, fun r' c' hb => ?_, fun q hq ⟨⟨r', c', hb⟩, hb2⟩ => ?_⟩, h5⟩⟩
    · have b1 := lin.realtime _ hm _ heS r' c' hb
      obtain ⟨x, y, rfl⟩ := List.append_of_mem he
      exact not_both nd b1 ⟨x, y, S2, by simp [eS]⟩
    · obtain ⟨eq, hq1, rfl, hw⟩ := inS q hq hb2
      have hqS : eq ∈ S := by rw [eS]; simp [hq1]
      have b1 := lin.realtime _ heS _ hqS r' c' hb
      rcases h3 eq hq1 hw with rfl | b2
      · exact not_both nd b1 b1
      · obtain ⟨x, y, z, rfl⟩ := b2
        exact not_both nd b1 ⟨x, y, z ++ (i, .get u, r) :: S2, by simp [eS]⟩

end Verif.UserStore
