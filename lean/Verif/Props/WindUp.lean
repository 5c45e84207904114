import Verif.Lemmas.WindUp
import Verif.Props.Exit
/-!
C69: winding up an honestly run pool.
-/

namespace Verif

open Spec

section
variable {env : Env}

/-- C69. When no stake is left in an honestly run pool (`C65_empty`), any number of stakers can leave it one after the other in
the same second, whatever happened before: every claim and every closing of a mining succeeds.  Each of them is paid the
whole tokens of what they are owed, short of the exact value by less than one token per expired lock date plus one, to their
token account, and gets the rent of the mining in their wallet.  Nothing else changes: the vault loses exactly what is paid
out and still covers the tokens not distributed yet, the pool and the minings of other stakers stay as they are. -/
theorem C69_wind_up (hi : env.PdaInjective) {P V : Key} {s0 s : Chain} {es : List Event} {L : Ledger} (hg : Genesis env s0)
    (hr : HonestRun env P V s0 es s L) (hn : s.now < 2 ^ 64) (hL : L.tokens = 0) {p : Pool} (hp : PoolAt env s.world P p)
    (hV : env.findVault P p.rewardMint = some (V, p.bump)) (hA : p.depositAuthority ≠ 0)
    (hT : (s.world p.rewardMint).owner = env.tokenProgram) {t : TokenAcc}
    (hv : UsableVault env s.world V p.depositAuthority t) {xs : List Leaver} (hnd : (xs.map (·.mining)).Nodup)
    (hx : ∀ x ∈ xs, CanLeave env s.world P V t x)
    (hrent : ∀ x ∈ xs, (s.world x.wallet).lamports + rentOf s.world xs < 2 ^ 64)
    (hl : ∀ x ∈ xs, (s.world x.account).lamports < 2 ^ 64) :
    ∃ n w2, RunsWith env (SucceedingEvent env) s (xs.flatMap (leave env P V p.rewardMint p.depositAuthority))
        { s with world := w2 } ∧
      HonestRun env P V s0 (es ++ xs.flatMap (leave env P V p.rewardMint p.depositAuthority)) { s with world := w2 } L ∧
      (∀ x ∈ xs, ∃ m, Member env s.world P x.mining m ∧
        10 ^ 16 * n x.mining ≤ 10 ^ 16 * m.unclaimed + entitlement m p.cumulative s.now ∧
        10 ^ 16 * m.unclaimed + entitlement m p.cumulative s.now <
          10 ^ 16 * (n x.mining + expiredCount m (midnight s.now) + 1)) ∧
      balance w2 V + (xs.map fun x => n x.mining).sum = balance s.world V ∧ p.tokensAvailable ≤ balance w2 V ∧
      (∀ k, k ≠ V → balance w2 k = balance s.world k + receipts n xs k) ∧
      (∀ x ∈ xs, (w2 x.mining).lamports = 0 ∧ (w2 x.mining).content = .zero) ∧
      (∀ k, (∀ x ∈ xs, k ≠ x.mining) → (w2 k).lamports = (s.world k).lamports + rentTo s.world xs k) ∧
      (∀ k, (s.world k).owner = env.programId → (∀ x ∈ xs, k ≠ x.mining) → w2 k = s.world k) ∧
      ((∀ k m, Member env s.world P k m → ∃ x ∈ xs, k = x.mining) → ∀ k m, ¬ Member env w2 P k m) := by
  have hL' : ∀ y ∈ L, y.amount = 0 := by
    clear hr
    unfold Ledger.tokens at hL
    induction L with
    | nil => nofun
    | cons y t ih =>
      rw [List.map_cons, List.sum_cons] at hL
      intro z hz
      rcases List.mem_cons.mp hz with rfl | hz
      · omega
      · exact ih (by omega) z hz
  obtain ⟨n, w2, f1, f2, f3, f4, f5, f6, f7, f8, f9, f10⟩ := leave_all hi hg hL' hV hA hr hn hp hT hv hnd hx hrent hl
  refine ⟨n, w2, f2, f1, f3, f4, ?_, f5, f6, f7, f8, ?_⟩
  · have := C63_solvent hi hg f1 hn f9 hV (ks := []) List.nodup_nil
    unfold owedTotal at this
    change 10 ^ 16 * p.tokensAvailable + 0 ≤ 10 ^ 16 * balance w2 V at this
    omega
  · intro h k m hm
    obtain ⟨h1, h2⟩ := f10 k m hm
    obtain ⟨x, hx, e⟩ := h k m h1
    exact h2 x hx e

end

/-! ### Concrete cases -/

open Demo

/-- Rewards are distributed once more, then the stakes of `maturedStory` are withdrawn. -/
def emptiedStory : List (Event × Nat) :=
  maturedStory ++ [(distribute 100, 0), (withdraw 100 120 80 121, 0), (withdraw 100 121 150 121, 1),
    (withdraw 100 121 250 121, 2), (withdraw 100 120 500 120, 3)]

def afterEmptied : Chain × Ledger := (ledgerRun 100 s0 [] emptiedStory).getD (s0, [])

theorem emptiedStory_honest :
    HonestRun Demo.env 100 (vaultOf 100 101) s0 (emptiedStory.map (·.1)) afterEmptied.1 afterEmptied.2 :=
  honest_eq (by decide +kernel) (by decide +kernel)

/-- The two stakers, with a token account each and one wallet for both rents. -/
def leavers : List Leaver := [⟨mine 120 100, 120, 130, 102⟩, ⟨mine 121 100, 121, 131, 102⟩]

theorem canLeave_of {w : World} {V : Key} {t : TokenAcc} {x : Leaver}
    (h1 : memberB w 100 x.mining (fun m => decide (m.owner = x.owner)) = true) (h2 : x.owner ≠ 0)
    (h3 : hasToken w x.account (fun u => decide (u.owner = x.owner ∧ u.frozen = false ∧ u.mint = t.mint ∧
      t.amount + u.amount < 2 ^ 64)) = true)
    (h4 : x.account ≠ V) (h5 : x.mining ≠ Demo.env.tokenProgram ∧ x.account ≠ Demo.env.tokenProgram)
    (h6 : (w x.wallet).owner = Demo.env.systemProgram) : CanLeave Demo.env w 100 V t x := by
  obtain ⟨m, hm, e⟩ := memberB_sound h1
  obtain ⟨u, hu, e'⟩ := hasToken_sound h3
  simp only [decide_eq_true_eq] at e e'
  exact ⟨⟨m, hm, e⟩, h2, ⟨u, hu, e'⟩, h4, h5, h6⟩

/-- All stakes are gone, rewards are waiting and both stakers are able to leave. -/
example : Demo.env.PdaInjective ∧ Genesis Demo.env s0 ∧ afterEmptied.1.now < 2 ^ 64 ∧ afterEmptied.2.tokens = 0 ∧
    (leavers.map (·.mining)).Nodup ∧ 0 < balance afterEmptied.1.world (vaultOf 100 101) ∧
    ∃ p t, PoolAt Demo.env afterEmptied.1.world 100 p ∧
      Demo.env.findVault 100 p.rewardMint = some (vaultOf 100 101, p.bump) ∧ p.depositAuthority ≠ 0 ∧
      (afterEmptied.1.world p.rewardMint).owner = Demo.env.tokenProgram ∧
      UsableVault Demo.env afterEmptied.1.world (vaultOf 100 101) p.depositAuthority t ∧
      (∀ x ∈ leavers, CanLeave Demo.env afterEmptied.1.world 100 (vaultOf 100 101) t x) ∧
      (∀ x ∈ leavers, (afterEmptied.1.world x.wallet).lamports + rentOf afterEmptied.1.world leavers < 2 ^ 64) ∧
      (∀ x ∈ leavers, (afterEmptied.1.world x.account).lamports < 2 ^ 64) ∧
      ∀ x ∈ leavers, ∃ m, Member Demo.env afterEmptied.1.world 100 x.mining m ∧ 0 < m.unclaimed := by
  refine ⟨env_injective, s0_genesis, by decide +kernel, by decide +kernel, by decide +kernel, by decide +kernel, ?_⟩
  have h1 : hasPool afterEmptied.1.world 100 (fun p => hasToken afterEmptied.1.world (vaultOf 100 101) (fun t =>
      decide (Demo.env.findVault 100 p.rewardMint = some (vaultOf 100 101, p.bump) ∧ p.depositAuthority ≠ 0 ∧
        (afterEmptied.1.world p.rewardMint).owner = Demo.env.tokenProgram ∧ (t.frozen = false ∧ t.native = false) ∧
        (t.owner = p.depositAuthority ∧ t.delegate ≠ some p.depositAuthority) ∧
        (afterEmptied.1.world p.depositAuthority).owner ≠ Demo.env.tokenProgram) &&
      hasToken afterEmptied.1.world 130 (fun u => decide (u.owner = 120 ∧ u.frozen = false ∧ u.mint = t.mint ∧
        t.amount + u.amount < 2 ^ 64)) &&
      hasToken afterEmptied.1.world 131 (fun u => decide (u.owner = 121 ∧ u.frozen = false ∧ u.mint = t.mint ∧
        t.amount + u.amount < 2 ^ 64)))) = true := by decide +kernel
  have a1 : memberB afterEmptied.1.world 100 (mine 120 100) (fun m => decide (m.owner = 120)) = true := by decide +kernel
  have a2 : memberB afterEmptied.1.world 100 (mine 121 100) (fun m => decide (m.owner = 121)) = true := by decide +kernel
  have b1 : memberB afterEmptied.1.world 100 (mine 120 100) (fun m => decide (0 < m.unclaimed)) = true := by decide +kernel
  have b2 : memberB afterEmptied.1.world 100 (mine 121 100) (fun m => decide (0 < m.unclaimed)) = true := by decide +kernel
  have c : (afterEmptied.1.world 102).owner = Demo.env.systemProgram := by decide +kernel
  have d1 : (afterEmptied.1.world 102).lamports + rentOf afterEmptied.1.world leavers < 2 ^ 64 := by decide +kernel
  have d2 : (afterEmptied.1.world 130).lamports < 2 ^ 64 := by decide +kernel
  have d3 : (afterEmptied.1.world 131).lamports < 2 ^ 64 := by decide +kernel
  generalize afterEmptied.1.world = w at *
  obtain ⟨p, hp, h⟩ := hasPool_sound h1
  obtain ⟨t, ht, h⟩ := hasToken_sound h
  simp only [Bool.and_eq_true] at h
  obtain ⟨⟨h, h130⟩, h131⟩ := h
  obtain ⟨e1, e2, e3, e4, e5, e6⟩ := of_decide_eq_true h
  refine ⟨p, t, hp, e1, e2, e3, ⟨ht, e4, e5, by decide +kernel, fun h => e6 h.1⟩, ?_, ?_, ?_, ?_⟩ <;> intro x hx <;>
    rcases List.mem_cons.mp hx with rfl | hx
  · exact canLeave_of a1 (by decide) h130 (by decide +kernel) (by decide +kernel) c
  · obtain rfl := List.mem_singleton.mp hx
    exact canLeave_of a2 (by decide) h131 (by decide +kernel) (by decide +kernel) c
  · exact d1
  · obtain rfl := List.mem_singleton.mp hx
    exact d1
  · exact d2
  · obtain rfl := List.mem_singleton.mp hx
    exact d3
  · obtain ⟨m, hm, e⟩ := memberB_sound b1
    exact ⟨m, hm, of_decide_eq_true e⟩
  · obtain rfl := List.mem_singleton.mp hx
    obtain ⟨m, hm, e⟩ := memberB_sound b2
    exact ⟨m, hm, of_decide_eq_true e⟩

end Verif
