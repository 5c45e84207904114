import Verif.Lemmas.Conserve
import Verif.Lemmas.SolvencyOps
/-!
Bounds on sums over all minings of a pool.
-/

namespace Verif

open Spec

variable {env : Env}

/-- Every sum over different accounts is at most `B`. -/
def Bounded (f : Key → Nat) (B : Int) : Prop := ∀ S : List Key, S.Nodup → (sumOver f S : Int) ≤ B

theorem sumOver_cons (f : Key → Nat) (k : Key) (S : List Key) : sumOver f (k :: S) = f k + sumOver f S := by
  simp [sumOver]

theorem sumOver_le {f g : Key → Nat} {S : List Key} (h : ∀ k, f k ≤ g k) : sumOver f S ≤ sumOver g S := by
  induction S with
  | nil => simp [sumOver]
  | cons a S ih => rw [sumOver_cons, sumOver_cons]; have := h a; omega

theorem Bounded.mono {f g : Key → Nat} {B C : Int} (h : Bounded f B) (hf : ∀ k, g k ≤ f k) (hB : B ≤ C) : Bounded g C := by
  intro S hS
  have h1 := h S hS
  have h2 := sumOver_le (S := S) hf
  omega

theorem Bounded.one {f : Key → Nat} {B : Int} (h : Bounded f B) (k : Key) : (f k : Int) ≤ B := by
  have := h [k] (by simp)
  rw [sumOver_cons] at this
  simpa [sumOver] using this

/-- `f` changed at `j` to `v`. -/
def upd (f : Key → Nat) (j : Key) (v : Nat) (k : Key) : Nat := if k = j then v else f k

theorem Bounded.upd {f : Key → Nat} {B : Int} (h : Bounded f B) (j : Key) (v : Nat) :
    Bounded (upd f j v) (B + v - f j) := by
  have key : ∀ S : List Key, S.Nodup → j ∈ S → (sumOver (Verif.upd f j v) S : Int) ≤ B + v - f j := by
    intro S hS hj
    have h1 := sumOver_one (f := Verif.upd f j v) (g := f) hS hj (fun k hk => by simp [Verif.upd, hk])
    have h2 := h S hS
    simp only [Verif.upd, if_true] at h1 ⊢
    omega
  intro S hS
  by_cases hj : j ∈ S
  · exact key S hS hj
  · have h1 := key (j :: S) (List.nodup_cons.mpr ⟨hj, hS⟩) (by simp)
    rw [sumOver_cons] at h1
    omega

theorem ofMember_eq {w : World} {P k : Key} {m : Mining} (h : Member env w P k m) (g : Mining → Nat) :
    ofMember env w P g k = g m := by
  unfold ofMember
  rw [if_pos h.1.1, h.1.2]
  simp [h.2]

theorem ofMember_zero {w : World} {P k : Key} (h : ∀ m, ¬ Member env w P k m) (g : Mining → Nat) :
    ofMember env w P g k = 0 := by
  unfold ofMember
  split
  · rename_i ho
    split
    · rename_i m hm
      split
      · rename_i hp
        exact absurd ⟨⟨ho, hm⟩, hp⟩ (h m)
      · rfl
    · rfl
  · rfl

theorem ofMember_cases {w : World} {P k : Key} (g : Mining → Nat) :
    (∃ m, Member env w P k m ∧ ofMember env w P g k = g m) ∨ ((∀ m, ¬ Member env w P k m) ∧ ofMember env w P g k = 0) := by
  by_cases h : ∃ m, Member env w P k m
  · obtain ⟨m, hm⟩ := h; exact Or.inl ⟨m, hm, ofMember_eq hm g⟩
  · have h' : ∀ m, ¬ Member env w P k m := fun m hm => h ⟨m, hm⟩
    exact Or.inr ⟨h', ofMember_zero h' g⟩

theorem Spec.Member.unique {w : World} {P k : Key} {m m' : Mining} (h : Member env w P k m) (h' : Member env w P k m') :
    m = m' := MiningAt.unique h.1 h'.1

/-- The minings of `P` listed in `L` changed as given; others stayed or disappeared, and unused ones may be new. -/
structure Moves (env : Env) (w w' : World) (P : Key) (L : List (Key × Mining × Mining)) : Prop where
  nodup : (L.map (·.1)).Nodup
  listed : ∀ y ∈ L, Member env w P y.1 y.2.1 ∧ Member env w' P y.1 y.2.2
  others : ∀ k m', k ∉ L.map (·.1) → Member env w' P k m' → Member env w P k m' ∨ Fresh m'

/-- `f` with the listed changes. -/
def updAll (g : Mining → Nat) (f : Key → Nat) : List (Key × Mining × Mining) → Key → Nat
  | [] => f
  | y :: t => upd (updAll g f t) y.1 (g y.2.2)

/-- Sum of the listed changes. -/
def gain (g : Mining → Nat) (L : List (Key × Mining × Mining)) : Int :=
  (L.map fun y => (g y.2.2 : Int) - g y.2.1).sum

theorem updAll_ne {g : Mining → Nat} {f : Key → Nat} {L : List (Key × Mining × Mining)} {k : Key}
    (h : k ∉ L.map (·.1)) : updAll g f L k = f k := by
  induction L with
  | nil => rfl
  | cons y t ih =>
    simp only [List.map_cons, List.mem_cons, not_or] at h
    simp only [updAll, upd, if_neg h.1]
    exact ih h.2

theorem updAll_mem {g : Mining → Nat} {f : Key → Nat} {L : List (Key × Mining × Mining)}
    (hn : (L.map (·.1)).Nodup) {y : Key × Mining × Mining} (h : y ∈ L) : updAll g f L y.1 = g y.2.2 := by
  induction L with
  | nil => cases h
  | cons z t ih =>
    rw [List.map_cons, List.nodup_cons] at hn
    simp only [updAll, upd]
    rcases List.mem_cons.mp h with rfl | h
    · simp
    · rw [if_neg, ih hn.2 h]
      intro e
      exact hn.1 (by rw [← e]; exact List.mem_map.mpr ⟨y, h, rfl⟩)

theorem Bounded.updAll {g : Mining → Nat} {f : Key → Nat} {L : List (Key × Mining × Mining)} {B : Int}
    (h : Bounded f B) (hn : (L.map (·.1)).Nodup) (hf : ∀ y ∈ L, f y.1 = g y.2.1) :
    Bounded (updAll g f L) (B + gain g L) := by
  induction L with
  | nil => simpa [Verif.updAll, gain] using h
  | cons y t ih =>
    rw [List.map_cons, List.nodup_cons] at hn
    have h1 := (ih hn.2 fun z hz => hf z (by simp [hz])).upd y.1 (g y.2.2)
    rw [updAll_ne hn.1, hf y (by simp)] at h1
    refine h1.mono (fun k => Nat.le_refl _) ?_
    simp only [gain, List.map_cons, List.sum_cons]
    omega

/-- Sums over members after the changes. -/
theorem Moves.bounded {w w' : World} {P : Key} {L : List (Key × Mining × Mining)} (h : Moves env w w' P L)
    {g : Mining → Nat} (hz : ∀ m, Fresh m → g m = 0) {B : Int} (hb : Bounded (ofMember env w P g) B) :
    Bounded (ofMember env w' P g) (B + gain g L) := by
  refine (hb.updAll h.nodup fun y hy => ofMember_eq (h.listed y hy).1 g).mono (fun k => ?_) (Int.le_refl _)
  by_cases hk : k ∈ L.map (·.1)
  · obtain ⟨y, hy, rfl⟩ := List.mem_map.mp hk
    rw [updAll_mem h.nodup hy, ofMember_eq (h.listed y hy).2]
    exact Nat.le_refl _
  · rw [updAll_ne hk]
    rcases ofMember_cases (env := env) (w := w') (P := P) (k := k) g with ⟨m, h1, h2⟩ | ⟨-, h2⟩
    · rw [h2]
      rcases h.others k m hk h1 with h3 | h3
      · rw [ofMember_eq h3]; exact Nat.le_refl _
      · rw [hz m h3]; exact Nat.zero_le _
    · rw [h2]; exact Nat.zero_le _

/-- A property of all members after the changes. -/
theorem Moves.all {w w' : World} {P : Key} {L : List (Key × Mining × Mining)} (h : Moves env w w' P L)
    {Q : Mining → Prop} (hz : ∀ m, Fresh m → Q m) (hold : ∀ k m, Member env w P k m → Q m)
    (hL : ∀ y ∈ L, Q y.2.2) : ∀ k m, Member env w' P k m → Q m := by
  intro k m hm
  by_cases hk : k ∈ L.map (·.1)
  · obtain ⟨y, hy, rfl⟩ := List.mem_map.mp hk
    rw [hm.unique (h.listed y hy).2]; exact hL y hy
  · rcases h.others k m hk hm with h3 | h3
    · exact hold k m h3
    · exact hz m h3

theorem Spec.Fresh.earning {m : Mining} (h : Fresh m) (x : Nat) : earningOn m x = 0 := by
  simp [earningOn, h.share, h.sfo]

theorem Spec.Fresh.owed {m : Mining} (h : Fresh m) (cum : SMap) : Spec.owed m cum = 0 := by
  unfold Spec.owed pending
  rw [h.unclaimed, earned_congr (eff' := fun _ => 0) (fun e _ => h.earning e.1)]
  have : ∀ i p (l : List (Nat × Nat)), earned (fun _ => 0) i p l = 0 := by
    intro i p l
    induction l generalizing p with
    | nil => rfl
    | cons a l ih => simp [earned, ih]
  rw [this]

theorem Spec.Fresh.sound {m : Mining} (h : Fresh m) (now : Nat) (cum : SMap) : Sound now cum m := by
  refine ⟨⟨?_, ?_⟩, ?_, ?_, ?_⟩
  · rw [h.diffs]; exact sorted_nil
  · rw [h.diffs]; simp
  · rw [h.diffs]; exact Nat.zero_le _
  · rw [h.index]; exact Nat.zero_le _
  · rw [h.diffs]; simp

theorem gain_nonpos {g : Mining → Nat} {L : List (Key × Mining × Mining)} (h : ∀ y ∈ L, g y.2.2 ≤ g y.2.1) :
    gain g L ≤ 0 := by
  induction L with
  | nil => simp [gain]
  | cons y t ih =>
    have h1 := ih fun z hz => h z (by simp [hz])
    have h2 := h y (by simp)
    simp only [gain, List.map_cons, List.sum_cons] at h1 ⊢
    omega

end Verif
