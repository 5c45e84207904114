import Verif.Lemmas.SolvencySums
import Verif.Lemmas.Access
/-!
Which minings of a pool an instruction changes, and what happens to the pool's vault.
-/

namespace Verif

open Spec

variable {env : Env}

/-- The change of an optional delegate as a list. -/
def pairs (k : Key) : Option Mining → Option Mining → List (Key × Mining × Mining)
  | some x, some x' => [(k, x, x')]
  | _, _ => []

theorem pairs_keys {k j : Key} {d d' : Option Mining} (h : j ∈ (pairs k d d').map (·.1)) : j = k := by
  cases d <;> cases d' <;> simp [pairs] at h
  exact h

theorem gain_pairs {now : Nat} {cum : SMap} {δ : Int} {k : Key} {d d' : Option Mining} (h : DelOk now cum δ d d')
    {x : Nat} (hx : midnight now ≤ x) :
    gain (fun m => earningOn m x) (pairs k d d') = if d.isSome = true then δ else 0 := by
  cases d <;> cases d'
  · rfl
  · exact h.elim
  · exact h.elim
  · have := h.2.2.2 x hx
    simp only [pairs, gain, List.map_cons, List.map_nil, List.sum_cons, List.sum_nil, Option.isSome_some, if_true]
    omega

theorem gain_cons (g : Mining → Nat) (y : Key × Mining × Mining) (L : List (Key × Mining × Mining)) :
    gain g (y :: L) = ((g y.2.2 : Int) - g y.2.1) + gain g L := by simp [gain]

theorem gain_append (g : Mining → Nat) (L L' : List (Key × Mining × Mining)) : gain g (L ++ L') = gain g L + gain g L' := by
  simp [gain]

theorem DelOk.mem {now : Nat} {cum : SMap} {δ : Int} {k : Key} {d d' : Option Mining} (h : DelOk now cum δ d d')
    {y : Key × Mining × Mining} (hy : y ∈ pairs k d d') :
    d = some y.2.1 ∧ d' = some y.2.2 ∧ owed y.2.2 cum ≤ owed y.2.1 cum ∧ Current now cum y.2.2 := by
  cases d <;> cases d' <;> simp [pairs] at hy
  subst hy
  exact ⟨rfl, rfl, h.1, h.2.1⟩

/-- A stake operation for the pool. -/
theorem StakeEffect.moves {w w' : World} {pk mk dk : Key} {p p' : Pool} {m m' : Mining} {d d' : Option Mining}
    (h : StakeEffect env w w' pk mk dk p p' m m' d d') (hs : SameMining m m') (hd : SameDelegate d d')
    (hm : m.rewardPool = pk) (hmem : dk ≠ mk → ∃ x, Member env w pk dk x) :
    Moves env w w' pk ((mk, m, m') :: pairs dk d d') := by
  rcases h.delegate with ⟨rfl, rfl, rfl⟩ | ⟨h1, h2, h3, x, x', rfl, rfl, h4⟩
  · refine ⟨by simp [pairs], ?_, ?_⟩
    · intro y hy
      simp [pairs] at hy
      subst hy
      exact ⟨⟨h.mining, hm⟩, h.mining', hs.rewardPool.trans hm⟩
    · intro k y hk hy
      simp [pairs] at hk
      have : k ≠ pk := by rintro rfl; exact PoolAt.not_mining h.pool' hy.1
      exact Or.inl ⟨(miningAt_congr (h.frame k this hk hk)).mp hy.1, hy.2⟩
  · obtain ⟨x0, hx0⟩ := hmem h1
    obtain ⟨rfl, h5⟩ := h4 x0 hx0.1
    refine ⟨by simpa [pairs] using Ne.symm h1, ?_, ?_⟩
    · intro y hy
      simp [pairs] at hy
      rcases hy with rfl | rfl
      · exact ⟨⟨h.mining, hm⟩, h.mining', hs.rewardPool.trans hm⟩
      · exact ⟨hx0, h5, hd.1.rewardPool.trans hx0.2⟩
    · intro k y hk hy
      simp [pairs] at hk
      have : k ≠ pk := by rintro rfl; exact PoolAt.not_mining h.pool' hy.1
      exact Or.inl ⟨(miningAt_congr (h.frame k this hk.1 hk.2)).mp hy.1, hy.2⟩

theorem moves_nil {w w' : World} {P : Key} (h : ∀ k y, Member env w' P k y → w' k = w k ∨ Member env w P k y ∨ Fresh y) :
    Moves env w w' P [] := by
  refine ⟨by simp, by simp, fun k y _ hy => ?_⟩
  rcases h k y hy with h1 | h1 | h1
  · exact Or.inl ⟨(miningAt_congr h1).mp hy.1, hy.2⟩
  · exact Or.inl h1
  · exact Or.inr h1

/-- A stake operation for another pool. -/
theorem StakeEffect.moves_other {w w' : World} {P pk mk dk : Key} {p p' : Pool} {m m' : Mining} {d d' : Option Mining}
    (h : StakeEffect env w w' pk mk dk p p' m m' d d') (hs : SameMining m m') (hd : SameDelegate d d')
    (hw : DelWritten env w w' dk d d') (hm : m.rewardPool ≠ P) (hx : ∀ x, d = some x → x.rewardPool ≠ P) :
    Moves env w w' P [] := by
  refine moves_nil fun k y hy => ?_
  by_cases e1 : k = pk
  · subst e1; exact absurd hy.1 (PoolAt.not_mining h.pool')
  by_cases e2 : k = mk
  · subst e2
    rw [MiningAt.unique hy.1 h.mining'] at hy
    exact absurd (hs.rewardPool.symm.trans hy.2) hm
  by_cases e3 : k = dk
  · subst e3
    rcases h.delegate with ⟨h1, -, -⟩ | ⟨-, -, -, x, x', rfl, rfl, -⟩
    · exact absurd h1 e2
    · have := (hw x' rfl).2 y hy.1
      subst this
      exact absurd (hd.1.rewardPool.symm.trans hy.2) (hx x rfl)
  · exact Or.inl (h.frame k e1 e2 e3)

theorem OptMoved.moved {w w' : World} {P mk dk : Key} {d d' : Option Mining} (h : OptMoved env w w' mk dk d d')
    (hd : SameDelegate d d') (hmem : dk ≠ mk → ∃ x, Member env w P dk x) :
    (d = none ∧ d' = none ∧ dk = mk) ∨
      ∃ x x', d = some x ∧ d' = some x' ∧ dk ≠ mk ∧ Member env w P dk x ∧ Member env w' P dk x' := by
  rcases h with ⟨rfl, rfl, rfl⟩ | ⟨h1, h2, x, x', rfl, rfl, h3⟩
  · exact Or.inl ⟨rfl, rfl, rfl⟩
  · obtain ⟨x0, hx0⟩ := hmem h1
    obtain ⟨rfl, h4⟩ := h3 x0 hx0.1
    exact Or.inr ⟨x0, x', rfl, rfl, h1, hx0, h4, hd.1.rewardPool.trans hx0.2⟩

/-- A change of delegate for the pool. -/
theorem RedelegateEffect.moves {w w' : World} {pk mk ok nk : Key} {p p' : Pool} {m m' : Mining}
    {od od' nd nd' : Option Mining} (h : RedelegateEffect env w w' pk mk ok nk p p' m m' od od' nd nd')
    (hs : SameMining m m') (ho : SameDelegate od od') (hn : SameDelegate nd nd') (hne : nk ≠ ok)
    (hm : m.rewardPool = pk) (hmo : ok ≠ mk → ∃ x, Member env w pk ok x) (hmn : nk ≠ mk → ∃ x, Member env w pk nk x) :
    Moves env w w' pk ((mk, m, m') :: (pairs ok od od' ++ pairs nk nd nd')) := by
  have hM : Member env w pk mk m ∧ Member env w' pk mk m' := ⟨⟨h.mining, hm⟩, h.mining', hs.rewardPool.trans hm⟩
  have hothers : ∀ k y, k ≠ mk → k ≠ ok → k ≠ nk → Member env w' pk k y → Member env w pk k y := by
    intro k y h1 h2 h3 hy
    have : k ≠ pk := by rintro rfl; exact PoolAt.not_mining h.pool' hy.1
    exact ⟨(miningAt_congr (h.frame k this h1 h2 h3)).mp hy.1, hy.2⟩
  rcases h.old.moved ho hmo with ⟨rfl, rfl, e1⟩ | ⟨x, x', rfl, rfl, o1, o2, o3⟩ <;>
  rcases h.new.moved hn hmn with ⟨rfl, rfl, e2⟩ | ⟨z, z', rfl, rfl, n1, n2, n3⟩
  · exact absurd (e2.trans e1.symm) hne
  · refine ⟨by simpa [pairs] using Ne.symm n1, ?_, ?_⟩
    · intro y hy; simp [pairs] at hy
      rcases hy with rfl | rfl
      · exact hM
      · exact ⟨n2, n3⟩
    · intro k y hk hy; simp [pairs] at hk
      exact Or.inl (hothers k y hk.1 (by rw [e1]; exact hk.1) hk.2 hy)
  · refine ⟨by simpa [pairs] using Ne.symm o1, ?_, ?_⟩
    · intro y hy; simp [pairs] at hy
      rcases hy with rfl | rfl
      · exact hM
      · exact ⟨o2, o3⟩
    · intro k y hk hy; simp [pairs] at hk
      exact Or.inl (hothers k y hk.1 hk.2 (by rw [e2]; exact hk.1) hy)
  · refine ⟨by simpa [pairs] using ⟨⟨Ne.symm o1, Ne.symm n1⟩, Ne.symm hne⟩, ?_, ?_⟩
    · intro y hy; simp [pairs] at hy
      rcases hy with rfl | rfl | rfl
      · exact hM
      · exact ⟨o2, o3⟩
      · exact ⟨n2, n3⟩
    · intro k y hk hy; simp [pairs] at hk
      exact Or.inl (hothers k y hk.1 hk.2.1 hk.2.2 hy)

/-- A change of delegate for another pool. -/
theorem RedelegateEffect.moves_other {w w' : World} {P pk mk ok nk : Key} {p p' : Pool} {m m' : Mining}
    {od od' nd nd' : Option Mining} (h : RedelegateEffect env w w' pk mk ok nk p p' m m' od od' nd nd')
    (hs : SameMining m m') (ho : SameDelegate od od') (hn : SameDelegate nd nd')
    (hwo : DelWritten env w w' ok od od') (hwn : DelWritten env w w' nk nd nd')
    (hm : m.rewardPool ≠ P) (hxo : ∀ x, od = some x → x.rewardPool ≠ P) (hxn : ∀ x, nd = some x → x.rewardPool ≠ P) :
    Moves env w w' P [] := by
  refine moves_nil fun k y hy => ?_
  by_cases e1 : k = pk
  · subst e1; exact absurd hy.1 (PoolAt.not_mining h.pool')
  by_cases e2 : k = mk
  · subst e2
    rw [MiningAt.unique hy.1 h.mining'] at hy
    exact absurd (hs.rewardPool.symm.trans hy.2) hm
  by_cases e3 : k = ok
  · subst e3
    rcases h.old with ⟨h1, -, -⟩ | ⟨-, -, x, x', rfl, rfl, -⟩
    · exact absurd h1 e2
    · have := (hwo x' rfl).2 y hy.1
      subst this
      exact absurd (ho.1.rewardPool.symm.trans hy.2) (hxo x rfl)
  by_cases e4 : k = nk
  · subst e4
    rcases h.new with ⟨h1, -, -⟩ | ⟨-, -, x, x', rfl, rfl, -⟩
    · exact absurd h1 e2
    · have := (hwn x' rfl).2 y hy.1
      subst this
      exact absurd (hn.1.rewardPool.symm.trans hy.2) (hxn x rfl)
  · exact Or.inl (h.frame k e1 e2 e3 e4)

/-- A delegate that was checked is a mining of that pool, or uninitialized. -/
theorem DelChecked.pool {w : World} {P D : Key} {x : Mining} (h : DelChecked env w P D x) (hi : env.PdaInjective) :
    x.rewardPool = P ∨ x.rewardPool = 0 := by
  rcases h.kind with ⟨-, h1⟩ | h1
  · obtain ⟨o, ho⟩ := h.addr
    exact Or.inl (hi.mining _ _ _ _ _ _ _ h1.addr ho).2.1
  · exact Or.inr h1.pool

theorem balance_of_program {now : Nat} {w : World} (hw : Wf env now w) {k : Key} (h : (w k).owner = env.programId) :
    balance w k = 0 := by
  unfold balance
  rcases (hw k).content h with e | ⟨q, e, -⟩ | ⟨m, e, -⟩ <;> rw [e]

theorem Shell.balance {now : Nat} {w w' : World} (hw : Wf env now w) {k : Key} (h : Shell env (w k) (w' k)) :
    Spec.balance w k ≤ Spec.balance w' k := by
  rcases h.2.2.2 with e | ⟨e, -⟩
  · unfold Spec.balance; rw [e]; exact Nat.le_refl _
  · rw [balance_of_program hw e]; exact Nat.zero_le _

theorem balance_congr {w w' : World} {k : Key} (h : (w' k).content = (w k).content) : balance w' k = balance w k := by
  unfold balance; rw [h]

theorem transfer_balance {w w' : World} {src dst auth k : Key} {n : Nat} (h : TransferEffect env w w' src dst auth n) :
    (k ≠ src → balance w k ≤ balance w' k) ∧ balance w k ≤ balance w' k + n ∧
      (k = dst → src ≠ dst → balance w' k = balance w k + n) := by
  rcases h.moved with ⟨rfl, h1⟩ | ⟨h1, h2, h3, h4⟩
  · have e : balance w' k = balance w k := by
      by_cases e : k = src
      · subst e; exact balance_congr (by rw [h1])
      · exact balance_congr (by rw [h.frame k e e])
    exact ⟨fun _ => by omega, by omega, fun _ h => absurd rfl h⟩
  · by_cases e1 : k = src
    · subst e1
      exact ⟨fun h => absurd rfl h, by omega, fun h => absurd h h1⟩
    · by_cases e2 : k = dst
      · subst e2
        exact ⟨fun _ => by omega, by omega, fun _ _ => h4⟩
      · have := balance_congr (w := w) (w' := w') (k := k) (by rw [h.frame k e1 e2])
        exact ⟨fun _ => by omega, by omega, fun h => absurd h e2⟩

end Verif
