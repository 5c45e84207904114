import Verif.Lemmas.Exit
import Verif.Lemmas.DemoHonest
/-!
C65: an honestly run pool can be emptied.
-/

namespace Verif

open Spec

section
variable {env : Env}

/-- C65. Once all stakes of an honestly run pool have matured, the deposit authority alone can withdraw all of them in the
same second, in at most as many instructions as there are stakes.  The pool is then honest still, and no mining has any
own or delegated stake left, nor has the pool, now or later. -/
theorem C65_empty (hi : env.PdaInjective) {P V : Key} {s0 s : Chain} {es : List Event} {L : Ledger} (hg : Genesis env s0)
    (hr : HonestRun env P V s0 es s L) (hn : s.now < 2 ^ 64) {p : Pool} (hp : PoolAt env s.world P p)
    (hV : env.findVault P p.rewardMint = some (V, p.bump)) (hB : balance s.world V < 2 ^ 64)
    (hA : p.depositAuthority ≠ 0) (hmat : ∀ y ∈ L, 0 < y.amount → y.Matured s.now) :
    ∃ es' s' L', HonestRun env P V s0 (es ++ es') s' L' ∧ s'.now = s.now ∧ es'.length ≤ L.length ∧
      (∀ e ∈ es', WithdrawalBy p.depositAuthority e) ∧ L'.tokens = 0 ∧
      (∀ k m, Member env s'.world P k m → m.stakeFromOthers = 0 ∧ ∀ x, midnight s.now ≤ x → weightOn m x = 0) ∧
      ∃ p', PoolAt env s'.world P p' ∧ SameConfig p p' ∧ ∀ x, midnight s.now ≤ x → totalOn p' x = 0 := by
  have key : ∀ (todo done : Ledger) (es : List Event) (s : Chain) (L : Ledger) (p : Pool), HonestRun env P V s0 es s L →
      s.now < 2 ^ 64 → PoolAt env s.world P p → env.findVault P p.rewardMint = some (V, p.bump) →
      balance s.world V < 2 ^ 64 → p.depositAuthority ≠ 0 → (∀ y ∈ L, 0 < y.amount → y.Matured s.now) →
      L.Perm (todo ++ done) → (∀ y ∈ done, y.amount = 0) →
      ∃ es' s' L' p', HonestRun env P V s0 (es ++ es') s' L' ∧ s'.now = s.now ∧ es'.length ≤ todo.length ∧
        (∀ e ∈ es', WithdrawalBy p.depositAuthority e) ∧ (∀ y ∈ L', y.amount = 0) ∧ PoolAt env s'.world P p' ∧
        SameConfig p p' := by
    intro todo
    induction todo with
    | nil =>
      intro done es s L p hr hn hp hV hB hA hmat hL hd
      exact ⟨[], s, L, p, by rw [List.append_nil]; exact hr, rfl, Nat.le_refl _, nofun, fun y hy => hd y (hL.mem_iff.mp hy),
        hp, rfl, rfl, rfl, rfl, rfl, rfl⟩
    | cons y todo ih =>
      intro done es s L p hr hn hp hV hB hA hmat hL hd
      by_cases hy : y.amount = 0
      · obtain ⟨es', s', L', p', h1, h2, h3, h4⟩ := ih (y :: done) es s L p hr hn hp hV hB hA hmat
          (hL.trans List.perm_middle.symm) (by
            intro z hz
            rcases List.mem_cons.mp hz with rfl | hz
            · exact hy
            · exact hd z hz)
        exact ⟨es', s', L', p', h1, h2, Nat.le_succ_of_le h3, h4⟩
      · have hyL : y ∈ L := hL.mem_iff.mpr (by simp)
        have hpos : 0 < y.amount := Nat.pos_of_ne_zero hy
        obtain ⟨accs, o, d, w', p1, g1, g2, g3, g4, g5⟩ := exit_step hi hg hr hn hp hV hB hA hL hpos (hmat y hyL hpos)
        obtain ⟨c1, c2, c3, c4, c5, c6⟩ := g4
        obtain ⟨es', s', L', p', h1, h2, h3, h4, h5, h6, f1, f2, f3, f4, f5, f6⟩ :=
          ih ({ y with amount := 0 } :: done) _ _ _ p1 g1 hn g3 (by rw [c4, c5]; exact hV) (Nat.lt_of_le_of_lt g5 hB)
            (by rw [c1]; exact hA) (by
              intro z hz hz0
              rcases List.mem_cons.mp hz with rfl | hz
              · cases hz0
              · exact hmat z (hL.mem_iff.mpr (List.mem_cons_of_mem _ hz)) hz0)
            List.perm_middle.symm (by
              intro z hz
              rcases List.mem_cons.mp hz with rfl | hz
              · rfl
              · exact hd z hz)
        refine ⟨_ :: es', s', L', p', by rw [List.append_assoc] at h1; exact h1, h2, Nat.succ_le_succ h3, ?_, h5, h6,
          f1.trans c1, f2.trans c2, f3.trans c3, f4.trans c4, f5.trans c5, f6.trans c6⟩
        intro e he
        rcases List.mem_cons.mp he with rfl | he
        · exact g2
        · rw [← c1]; exact h4 e he
  obtain ⟨es', s', L', p', h1, h2, h3, h4, h5, h6, h7⟩ := key L [] es s L p hr hn hp hV hB hA hmat (by simp) nofun
  obtain ⟨-, hb, -⟩ := honest_orderly_at hi hg h1 h6
  have zero : ∀ f : StakeEntry → Int, (∀ y ∈ L', f y = 0) → (L'.map f).sum = 0 := by
    intro f hf
    clear h1 h5 hb
    induction L' with
    | nil => rfl
    | cons y t ih =>
      rw [List.map_cons, List.sum_cons, hf y (by simp), ih fun z hz => hf z (by simp [hz])]
      rfl
  have w0 : ∀ y ∈ L', ∀ x, y.worth x = 0 := by intro y hy x; unfold StakeEntry.worth; rw [h5 y hy]; simp
  have l0 : ∀ y ∈ L', y.lent = 0 := by intro y hy; unfold StakeEntry.lent; rw [h5 y hy]; simp
  refine ⟨es', s', L', h1, h2, h3, h4, ?_, ?_, p', h6, h7, ?_⟩
  · unfold Ledger.tokens
    clear zero w0 l0 h1 hb
    induction L' with
    | nil => rfl
    | cons y t ih =>
      rw [List.map_cons, List.sum_cons, h5 y (by simp), ih fun z hz => h5 z (by simp [hz])]
  · intro k m hm
    constructor
    · have := hb.lent k m hm
      unfold Ledger.lentTo at this
      rw [zero _ (by intro y hy; rw [l0 y hy]; simp)] at this
      omega
    · intro x hx
      rw [hb.weight k m hm x (by rw [h2]; exact hx)]
      exact zero _ (by intro y hy; rw [w0 y hy]; simp)
  · intro x hx
    rw [hb.total p' h6 x (by rw [h2]; exact hx)]
    exact zero _ (by intro y hy; rw [w0 y hy, l0 y hy]; rfl)

end

/-! ## Example -/

section Examples
open Demo

/-- A year later all four stakes have matured. -/
def maturedStory : List (Event × Nat) := honestStory ++ [(.tick (365 * DAY), 0)]

def afterMatured : Chain × Ledger := (ledgerRun 100 s0 [] maturedStory).getD (s0, [])

theorem maturedStory_honest :
    HonestRun Demo.env 100 (vaultOf 100 101) s0 (maturedStory.map (·.1)) afterMatured.1 afterMatured.2 :=
  honest_eq (by decide +kernel) (by decide +kernel)

example : Demo.env.PdaInjective ∧ Genesis Demo.env s0 ∧ afterMatured.1.now < 2 ^ 64 ∧
    balance afterMatured.1.world (vaultOf 100 101) < 2 ^ 64 ∧ afterMatured.2.tokens = 980 ∧
    (∀ y ∈ afterMatured.2, 0 < y.amount → y.Matured afterMatured.1.now) ∧
    ∃ p, PoolAt Demo.env afterMatured.1.world 100 p ∧ p.depositAuthority ≠ 0 ∧
      Demo.env.findVault 100 p.rewardMint = some (vaultOf 100 101, p.bump) := by
  refine ⟨env_injective, s0_genesis, by decide +kernel, by decide +kernel, by decide +kernel, ?_, ?_⟩
  · have h : (List.all afterMatured.2 fun y => decide (y.expires ≤ afterMatured.1.now)) = true := by decide +kernel
    intro y hy _
    exact Or.inr (of_decide_eq_true (List.all_eq_true.mp h y hy))
  · have h : hasPool afterMatured.1.world 100 (fun p => decide (p.depositAuthority = 110 ∧
        Demo.env.findVault 100 p.rewardMint = some (vaultOf 100 101, p.bump))) = true := by decide +kernel
    obtain ⟨p, hp, h⟩ := hasPool_sound h
    simp only [decide_eq_true_eq] at h
    exact ⟨p, hp, by rw [h.1]; decide, h.2⟩

end Examples

end Verif
