import Verif.Lemmas.Honest
import Verif.Lemmas.DemoHonest
import Verif.Props.Solvency
import Verif.Props.Live
/-!
Honest pools (`Spec.HonestRun`): C63 (solvent, claims and distributions succeed), C64 (no stake is stuck).

The conditions speak about the stakes that exist, not about the numbers the program keeps, and failed instructions are
unrestricted.
-/

namespace Verif

open Spec

section
variable {env : Env}

/-- C63. The vault of an honestly run pool holds at least the tokens not yet distributed and everything owed to all its
minings together. -/
theorem C63_solvent (hi : env.PdaInjective) {P V : Key} {s0 s : Chain} {es : List Event} {L : Ledger} (hg : Genesis env s0)
    (hr : HonestRun env P V s0 es s L) (hn : s.now < 2 ^ 64) {p : Pool} (hp : PoolAt env s.world P p)
    (hV : env.findVault P p.rewardMint = some (V, p.bump)) {ks : List Key} (hk : ks.Nodup) :
    10 ^ 16 * p.tokensAvailable + owedTotal env s.world P p.cumulative ks ≤ 10 ^ 16 * balance s.world V := by
  obtain ⟨-, -, es', ho, -⟩ := honest_orderly_at hi hg hr hp
  exact C09_solvency_partial hi hg ho hn hp hV hk

/-- C63. A claim made with the right accounts succeeds. -/
theorem C63_claim (hi : env.PdaInjective) {P V : Key} {s0 s : Chain} {es : List Event} {L : Ledger} (hg : Genesis env s0)
    (hr : HonestRun env P V s0 es s L) (hn : s.now < 2 ^ 64) {accs : List AccountInfo}
    {aP T aV M O A U K : AccountInfo} {rest : List AccountInfo} {p : Pool} {m : Mining} {t u : TokenAcc}
    (hP : aP.key = P) (hV : aV.key = V) (hc : ClaimReady env s.world accs aP T aV M O A U K rest p m t u) :
    ∃ w' n, exec env s.now s.world accs .claim = .ok (w', some n) ∧ n + p.tokensAvailable ≤ balance s.world V := by
  obtain ⟨-, -, es', ho, -⟩ := honest_orderly_at hi hg hr (hP ▸ hc.pool)
  exact C26_claim_partial hi hg ho hn hP hV hc

/-- C63. A distribution made with the right accounts succeeds as soon as there is a stake of at least one token, provided
fewer than 2^64 tokens have been filled in over the pool's lifetime. -/
theorem C63_distribute (hi : env.PdaInjective) {P V : Key} {s0 s : Chain} {es : List Event} {L : Ledger}
    (hg : Genesis env s0) (hr : HonestRun env P V s0 es s L) (hn : s.now < 2 ^ 64) {accs : List AccountInfo}
    {aP B : AccountInfo} {rest : List AccountInfo} {p : Pool} (hP : aP.key = P)
    (hc : DistributeReady env s.world accs aP B rest p) (hV : env.findVault P p.rewardMint = some (V, p.bump))
    {y : StakeEntry} (hy : y ∈ L) (hpos : 0 < y.amount) (hF : totalIn env (filledBy env P) s0 es < 2 ^ 64) :
    ∃ w', exec env s.now s.world accs .distributeRewards = .ok (w', none) := by
  obtain ⟨-, hb, es', ho, hf⟩ := honest_orderly_at hi hg hr (hP ▸ hc.pool)
  obtain ⟨⟨m, hm⟩, -⟩ := hb.known y hy hpos
  have h1 := hb.weight _ m hm (midnight s.now) (Nat.le_refl _)
  have h2 := own_ge hy (midnight s.now)
  have ht := hr.ledger.times nofun y hy
  have h3 : (y.amount : Int) ≤ y.worth (midnight s.now) := by
    unfold StakeEntry.worth
    have : (y.amount : Int) ≤ y.amount * y.times := by
      have := Nat.mul_le_mul_left y.amount ht
      rw [Nat.mul_one] at this
      exact_mod_cast this
    split <;> omega
  refine C52_distribute_partial hi hg ho hn hP hc hV hm ?_ (by rw [hf]; exact hF)
  unfold weightOn at h1
  unfold earningOn
  omega

/-- C64. Any part of a stake can be withdrawn. -/
theorem C64_withdraw (hi : env.PdaInjective) {P V : Key} {s0 s : Chain} {es : List Event} {L : Ledger} (hg : Genesis env s0)
    (hr : HonestRun env P V s0 es s L) (hn : s.now < 2 ^ 64) {accs : List AccountInfo}
    {aP M A D : AccountInfo} {rest : List AccountInfo} {p : Pool} {m : Mining} {d : Option Mining} {owner delegate : Key}
    (hP : aP.key = P) (hc : StakeReady env s.world accs aP M A D rest p m d owner delegate)
    (hV : env.findVault P p.rewardMint = some (V, p.bump)) (hB : balance s.world V < 2 ^ 64)
    {y : StakeEntry} (hy : y ∈ L) (hM : M.key = y.mining) (hD : D.key = y.delegate) {a : Nat} (ha : a ≤ y.amount) :
    ∃ w', exec env s.now s.world accs (.withdrawMining a owner delegate) = .ok (w', none) := by
  subst hP
  obtain ⟨-, hb, es', ho, -⟩ := honest_orderly_at hi hg hr hc.pool
  refine C53_withdraw_partial hi hg ho hn rfl hc hV hB (hb.unlocked hy (hM ▸ hc.mining) ha) fun x hx => ?_
  rcases hc.delegate with ⟨-, h⟩ | ⟨h1, x', h2, h3, -⟩
  · rw [hx] at h; cases h
  · cases hx.symm.trans h2
    exact Nat.le_trans ha (hb.lends hy (hD ▸ h3) (by rw [← hM, ← hD]; exact h1))

/-- C64. A stake whose multiplier is used up can be extended, with the old lockup period and start date that belong to it,
unless the amounts get too large or a distribution has been made in this very second. -/
theorem C64_extend (hi : env.PdaInjective) {P V : Key} {s0 s : Chain} {es : List Event} {L : Ledger} (hg : Genesis env s0)
    (hr : HonestRun env P V s0 es s L) (hn : s.now < 2 ^ 64) {accs : List AccountInfo}
    {aP M A D : AccountInfo} {rest : List AccountInfo} {p : Pool} {m : Mining} {d : Option Mining} {owner delegate : Key}
    (hP : aP.key = P) (hc : StakeReady env s.world accs aP M A D rest p m d owner delegate)
    (hV : env.findVault P p.rewardMint = some (V, p.bump)) (hB : balance s.world V < 2 ^ 64)
    (hs : Settled p.cumulative s.now) {y : StakeEntry} (hy : y ∈ L) (hM : M.key = y.mining) (hD : D.key = y.delegate)
    (hmat : y.Matured s.now) {op np : LockupPeriod} {ts a k n : Nat}
    (hop : ∃ j, terms op = some (y.times, j) ∧ y.expires = midnight ts + 86400 * j) (hnp : terms np = some (k, n))
    (hfit : p.totalShare + (y.amount + a) * k + (y.amount + a) < 2 ^ 64) (hdate : midnight s.now + 86400 * n < 2 ^ 64)
    (hd : ∀ x, d = some x → x.share + x.stakeFromOthers + a < 2 ^ 64) :
    ∃ w', exec env s.now s.world accs (.extendStake op np ts y.amount a owner delegate) = .ok (w', none) := by
  subst hP
  obtain ⟨-, hb, es', ho, -⟩ := honest_orderly_at hi hg hr hc.pool
  obtain ⟨j, t1, t2⟩ := hop
  refine C54_extend_partial hi hg ho hn rfl hc hV hB hs (hb.unlocked hy (hM ▸ hc.mining) (Nat.le_refl _)) ?_ hnp hfit hdate
    fun x hx => ⟨?_, hd x hx⟩
  · rcases hmat with h | h
    · exact Or.inl (flex_of_terms t1 h)
    · exact Or.inr ⟨_, _, t1, by omega⟩
  · rcases hc.delegate with ⟨-, h⟩ | ⟨h1, x', h2, h3, -⟩
    · rw [hx] at h; cases h
    · cases hx.symm.trans h2
      exact hb.lends hy (hD ▸ h3) (by rw [← hM, ← hD]; exact h1)

/-- C64. The delegate of a stake can be changed, unless the amounts get too large, where the stake is credited to the new delegate
from when they were last brought up to date. -/
theorem C64_redelegate (hi : env.PdaInjective) {P V : Key} {s0 s : Chain} {es : List Event} {L : Ledger}
    (hg : Genesis env s0) (hr : HonestRun env P V s0 es s L) (hn : s.now < 2 ^ 64) {accs : List AccountInfo}
    {aP M A O X Y : AccountInfo} {rest : List AccountInfo} {p : Pool} {m : Mining} {od nd : Option Mining} {delegate : Key}
    (hP : aP.key = P) (hc : RedelegateReady env s.world accs aP M A O X Y rest p m od nd delegate)
    (hV : env.findVault P p.rewardMint = some (V, p.bump)) (hB : balance s.world V < 2 ^ 64)
    {y : StakeEntry} (hy : y ∈ L) (hM : M.key = y.mining) (hX : X.key = y.delegate)
    (hfit : p.totalShare + y.amount < 2 ^ 64)
    (hd : ∀ x, nd = some x → x.share + x.stakeFromOthers + y.amount < 2 ^ 64 ∧
      10 ^ 16 * balance s.world V + y.amount * (lastIndex 0 p.cumulative - x.index) ≤ 10 ^ 16 * (2 ^ 64 - 1)) :
    ∃ w', exec env s.now s.world accs (.changeDelegate y.amount delegate) = .ok (w', none) := by
  subst hP
  obtain ⟨-, hb, es', ho, -⟩ := honest_orderly_at hi hg hr hc.pool
  refine C55_redelegate_partial hi hg ho hn rfl hc hV hB (fun x hx => ?_) hfit hd
  rcases hc.old with ⟨-, h⟩ | ⟨h1, x', h2, h3⟩
  · rw [hx] at h; cases h
  · cases hx.symm.trans h2
    exact hb.lends hy (hX ▸ h3) (by rw [← hM, ← hX]; exact h1)

/-- C64. Any part of a stake can be slashed like unlocked stake. -/
theorem C64_slash (hi : env.PdaInjective) {P V : Key} {s0 s : Chain} {es : List Event} {L : Ledger} (hg : Genesis env s0)
    (hr : HonestRun env P V s0 es s L) (hn : s.now < 2 ^ 64) {accs : List AccountInfo}
    {A aP M : AccountInfo} {rest : List AccountInfo} {p : Pool} {m : Mining} {owner : Key}
    (hP : aP.key = P) (hc : SlashReady env s.world accs A aP M rest p m owner)
    (hV : env.findVault P p.rewardMint = some (V, p.bump)) (hB : balance s.world V < 2 ^ 64)
    {y : StakeEntry} (hy : y ∈ L) (hM : M.key = y.mining) {n : Nat} (ha : n ≤ y.amount) :
    ∃ w', exec env s.now s.world accs (.slash owner n n none) = .ok (w', none) := by
  subst hP
  obtain ⟨hP0, hb, es', ho, -⟩ := honest_orderly_at hi hg hr hc.pool
  obtain ⟨-, hw, -, hs⟩ := runs_solvent hi hP0 hg ho hn
  have hm := hc.mining
  rw [hM] at hm
  have ht := (hs.books p hc.pool hV).takes (D := M.key) (d := none) hw hc.pool hB hc.mining (Or.inl ⟨rfl, rfl⟩)
  have h1 := hb.unlocked hy hm ha
  have h2 := dueBy_le_total m.diffs (midnight s.now)
  have h3 := ht.cover (midnight s.now) (Nat.le_refl _)
  have h4 := earning_eq ht.mining.backed (midnight s.now)
  unfold Unlocked at h1
  simp only [delEarning] at h3
  have h5 : (n : Int) ≤ weightOn m (midnight s.now) := by unfold weightOn; omega
  obtain ⟨⟨p', m'⟩, h⟩ := slash_succeeds (n := n) (mu := n) (ex := none) ht h5 (by omega) nofun
  exact ⟨_, slash_exec hw hc h⟩

/-- C64. Any part of a locked stake can be slashed together with its multiplier, with its expiry date. -/
theorem C64_slash_locked (hi : env.PdaInjective) {P V : Key} {s0 s : Chain} {es : List Event} {L : Ledger}
    (hg : Genesis env s0) (hr : HonestRun env P V s0 es s L) (hn : s.now < 2 ^ 64) {accs : List AccountInfo}
    {A aP M : AccountInfo} {rest : List AccountInfo} {p : Pool} {m : Mining} {owner : Key}
    (hP : aP.key = P) (hc : SlashReady env s.world accs A aP M rest p m owner)
    (hV : env.findVault P p.rewardMint = some (V, p.bump)) (hB : balance s.world V < 2 ^ 64)
    {y : StakeEntry} (hy : y ∈ L) (hM : M.key = y.mining) (hmul : 2 ≤ y.times) (hlock : s.now < y.expires) {n ts : Nat}
    (hpos : 0 < n) (ha : n ≤ y.amount) (hts : midnight ts = y.expires) :
    ∃ w', exec env s.now s.world accs (.slash owner n (n * y.times) (some ts)) = .ok (w', none) := by
  subst hP
  obtain ⟨hP0, hb, es', ho, -⟩ := honest_orderly_at hi hg hr hc.pool
  obtain ⟨-, hw, -, hs⟩ := runs_solvent hi hP0 hg ho hn
  have hm := hc.mining
  rw [hM] at hm
  have ht := (hs.books p hc.pool hV).takes (D := M.key) (d := none) hw hc.pool hB hc.mining (Or.inl ⟨rfl, rfl⟩)
  have hmid : midnight s.now < y.expires := by have : midnight s.now ≤ s.now := by unfold midnight; omega
                                               omega
  have hle : n * y.times ≤ y.amount * y.times := Nat.mul_le_mul_right _ ha
  have hw0 : y.worth (midnight s.now) = ((y.amount * y.times : Nat) : Int) := by
    unfold StakeEntry.worth; rw [if_pos hmid]; simp
  obtain ⟨b1, b2⟩ := hb.bonus (hr.ledger.times nofun) hy hmid hm hc.pool
  have entry : ∀ {l : SMap}, Sorted l → y.amount * y.times ≤ dueBy l y.expires - dueBy l (y.expires - 1) + y.amount →
      ∃ v, l.get (midnight ts) = some v ∧ n * y.times - n ≤ v := by
    intro l hl h
    have g := dueBy_step (l := l) y.expires
    rw [recorded_get hl] at g
    have g2 : dueBy l y.expires - dueBy l (y.expires - 1) ≤ (l.get y.expires).getD 0 := Nat.sub_le_iff_le_add'.mpr g
    have g3 : y.amount * y.times ≤ (l.get y.expires).getD 0 + y.amount := Nat.le_trans h (Nat.add_le_add_right g2 y.amount)
    obtain ⟨e1, e2⟩ := bonus_part hmul hpos ha g3
    rw [hts]
    cases hg : l.get y.expires with
    | none => rw [hg] at e2; cases e2
    | some v => rw [hg] at e1; exact ⟨v, rfl, e1⟩
  have w1 := own_ge hy (midnight s.now)
  rw [← hb.weight _ m hm (midnight s.now) (Nat.le_refl _), hw0] at w1
  have w2 := all_ge hy (midnight s.now)
  rw [← hb.total p hc.pool (midnight s.now) (Nat.le_refl _), hw0] at w2
  have w3 := Int.le_trans (Int.le_add_of_nonneg_right (lent_nonneg y)) w2
  have w4 := Int.ofNat_le.mpr hle
  obtain ⟨⟨p', m'⟩, h⟩ := slash_succeeds (n := n) (mu := n * y.times) (ex := some ts) ht (Int.le_trans w4 w1)
    (Int.le_trans w4 w3) fun ts' e => by
      cases e
      exact ⟨Nat.le_mul_of_pos_right n (Nat.lt_of_lt_of_le (by decide) hmul), by rw [hts]; exact hmid, entry ht.mining.ok.sorted b1,
        entry ht.pool.sorted b2⟩
  exact ⟨_, slash_exec hw hc h⟩

end

/-! ## Examples -/

section Examples
open Demo

/-- An honest history with every kind of operation; four stakes are left, one of them delegated. -/
example : Demo.env.PdaInjective ∧ Genesis Demo.env s0 ∧
    HonestRun Demo.env 100 (vaultOf 100 101) s0 (honestStory.map (·.1)) afterHonest.1 afterHonest.2 ∧
    afterHonest.1.now < 2 ^ 64 ∧ balance afterHonest.1.world (vaultOf 100 101) < 2 ^ 64 ∧
    0 < balance afterHonest.1.world (vaultOf 100 101) ∧
    totalIn Demo.env (filledBy Demo.env 100) s0 (honestStory.map (·.1)) < 2 ^ 64 ∧ afterHonest.2.length = 4 :=
  ⟨env_injective, s0_genesis, honestStory_honest, by decide +kernel, by decide +kernel, by decide +kernel, by decide +kernel,
    by rw [honestStory_stakes]; rfl⟩

/-- In that state user 120 can withdraw from the stake of 80 delegated to user 121 (conditions of `C64_withdraw`). -/
example : ∃ p m x, StakeReady Demo.env afterHonest.1.world [W 100, W (mine 120 100), S 110, W (mine 121 100)] (W 100)
      (W (mine 120 100)) (S 110) (W (mine 121 100)) [] p m (some x) 120 121 ∧
    Demo.env.findVault 100 p.rewardMint = some (vaultOf 100 101, p.bump) ∧
    ⟨mine 120 100, mine 121 100, 80, 1, day0 + 106 * DAY⟩ ∈ afterHonest.2 := by
  have h : hasPool afterHonest.1.world 100 (fun p => decide (p.depositAuthority = 110 ∧
      Demo.env.findVault 100 p.rewardMint = some (vaultOf 100 101, p.bump)) &&
      memberB afterHonest.1.world 100 (mine 120 100) (fun m => decide (m.owner = 120)) &&
      memberB afterHonest.1.world 100 (mine 121 100) (fun x => decide (x.owner = 121))) = true := by decide +kernel
  obtain ⟨p, hp, h⟩ := hasPool_sound h
  simp only [Bool.and_eq_true, decide_eq_true_eq] at h
  obtain ⟨⟨⟨h1, h2⟩, h6⟩, h7⟩ := h
  obtain ⟨m, hm, h8⟩ := memberB_sound h6
  obtain ⟨x, hx, h9⟩ := memberB_sound h7
  simp only [decide_eq_true_eq] at h8 h9
  exact ⟨p, m, x, ⟨rfl, hp, hm, h8.symm, ⟨h1.symm, rfl⟩, Or.inr ⟨by decide, x, rfl, hx, h9.symm⟩, by decide⟩, h2,
    by rw [honestStory_stakes]; simp⟩

/-- User 121 can extend the expired stake of 150 by 50 for a year, delegate it to user 120, and be slashed by 7 of it
(conditions of `C64_extend`, `C64_redelegate`, `C64_slash`, `C63_distribute`). -/
example : ∃ p m x, StakeReady Demo.env afterHonest.1.world [W 100, W (mine 121 100), S 110, W (mine 121 100)] (W 100)
      (W (mine 121 100)) (S 110) (W (mine 121 100)) [] p m none 121 121 ∧
    RedelegateReady Demo.env afterHonest.1.world
      [W 100, W (mine 121 100), S 110, S 121, W (mine 121 100), W (mine 120 100)] (W 100) (W (mine 121 100)) (S 110) (S 121)
      (W (mine 121 100)) (W (mine 120 100)) [] p m none (some x) 120 ∧
    SlashReady Demo.env afterHonest.1.world [S 110, W 100, W (mine 121 100)] (S 110) (W 100) (W (mine 121 100)) [] p m 121 ∧
    DistributeReady Demo.env afterHonest.1.world [W 100, S 111] (W 100) (S 111) [] p ∧
    Demo.env.findVault 100 p.rewardMint = some (vaultOf 100 101, p.bump) ∧
    ⟨mine 121 100, mine 121 100, 150, 2, day0 + 90 * DAY⟩ ∈ afterHonest.2 ∧
    StakeEntry.Matured ⟨mine 121 100, mine 121 100, 150, 2, day0 + 90 * DAY⟩ afterHonest.1.now ∧
    Settled p.cumulative afterHonest.1.now ∧ terms .threeMonths = some (2, 90) ∧
    day0 + 90 * DAY = midnight day0 + 86400 * 90 ∧ terms .oneYear = some (6, 365) ∧
    p.totalShare + (150 + 50) * 6 + (150 + 50) < 2 ^ 64 ∧ midnight afterHonest.1.now + 86400 * 365 < 2 ^ 64 ∧
    x.share + x.stakeFromOthers + 150 < 2 ^ 64 ∧ 10 ^ 16 * balance afterHonest.1.world (vaultOf 100 101) +
      150 * (lastIndex 0 p.cumulative - x.index) ≤ 10 ^ 16 * (2 ^ 64 - 1) := by
  have h : hasPool afterHonest.1.world 100 (fun p => decide (p.depositAuthority = 110 ∧ p.distributeAuthority = 111 ∧
      Demo.env.findVault 100 p.rewardMint = some (vaultOf 100 101, p.bump) ∧
      p.totalShare + (150 + 50) * 6 + (150 + 50) < 2 ^ 64) && settledB p.cumulative afterHonest.1.now &&
      memberB afterHonest.1.world 100 (mine 121 100) (fun m => decide (m.owner = 121)) &&
      memberB afterHonest.1.world 100 (mine 120 100) (fun x => decide (x.owner = 120 ∧
        x.share + x.stakeFromOthers + 150 < 2 ^ 64 ∧ 10 ^ 16 * balance afterHonest.1.world (vaultOf 100 101) +
          150 * (lastIndex 0 p.cumulative - x.index) ≤ 10 ^ 16 * (2 ^ 64 - 1)))) = true := by decide +kernel
  obtain ⟨p, hp, h⟩ := hasPool_sound h
  simp only [Bool.and_eq_true, decide_eq_true_eq] at h
  obtain ⟨⟨⟨⟨h1, h2, h3, h4⟩, h5⟩, h6⟩, h7⟩ := h
  obtain ⟨m, hm, h8⟩ := memberB_sound h6
  obtain ⟨x, hx, h9⟩ := memberB_sound h7
  simp only [decide_eq_true_eq] at h8 h9
  refine ⟨p, m, x, ⟨rfl, hp, hm, h8.symm, ⟨h1.symm, rfl⟩, Or.inl ⟨rfl, rfl⟩, by decide⟩,
    ⟨rfl, hp, hm, ⟨h8.symm, rfl⟩, ⟨h1.symm, rfl⟩, by decide, Or.inl ⟨rfl, rfl⟩,
      Or.inr ⟨by decide, x, rfl, hx, h9.1.symm⟩, by decide⟩,
    ⟨rfl, hp, hm, h8.symm, ⟨h1.symm, rfl⟩, by decide⟩, ⟨rfl, hp, ⟨h2.symm, rfl⟩, by decide⟩, h3,
    by rw [honestStory_stakes]; simp, Or.inr ?_, settledB_sound h5, rfl, by decide, rfl, h4, by decide +kernel, h9.2.1, h9.2.2⟩
  show day0 + 90 * DAY ≤ afterHonest.1.now
  decide +kernel

/-- The stake of 500 that user 120 has locked for a year can be slashed (conditions of `C64_slash_locked`). -/
example : ∃ p m, SlashReady Demo.env afterHonest.1.world [S 110, W 100, W (mine 120 100)] (S 110) (W 100) (W (mine 120 100))
      [] p m 120 ∧
    Demo.env.findVault 100 p.rewardMint = some (vaultOf 100 101, p.bump) ∧
    ⟨mine 120 100, mine 120 100, 500, 6, day0 + 365 * DAY⟩ ∈ afterHonest.2 ∧ afterHonest.1.now < day0 + 365 * DAY ∧
    midnight (day0 + 365 * DAY) = day0 + 365 * DAY := by
  have h : hasPool afterHonest.1.world 100 (fun p => decide (p.depositAuthority = 110 ∧
      Demo.env.findVault 100 p.rewardMint = some (vaultOf 100 101, p.bump)) &&
      memberB afterHonest.1.world 100 (mine 120 100) (fun m => decide (m.owner = 120))) = true := by decide +kernel
  obtain ⟨p, hp, h⟩ := hasPool_sound h
  simp only [Bool.and_eq_true, decide_eq_true_eq] at h
  obtain ⟨⟨h1, h2⟩, h6⟩ := h
  obtain ⟨m, hm, h8⟩ := memberB_sound h6
  simp only [decide_eq_true_eq] at h8
  refine ⟨p, m, ⟨rfl, hp, hm, h8.symm, ⟨h1.symm, rfl⟩, by decide⟩, h2, ?_, ?_, by decide +kernel⟩
  · rw [honestStory_stakes]; simp
  · decide +kernel

/-- A claim of user 121 in that state meets the conditions of `C63_claim`. -/
example : ∃ p m t u, ClaimReady Demo.env afterHonest.1.world
    [R 100, R 101, W (vaultOf 100 101), W (mine 121 100), S 121, S 110, W 131, R 2] (R 100) (R 101) (W (vaultOf 100 101))
    (W (mine 121 100)) (S 121) (S 110) (W 131) (R 2) [] p m t u := by
  have h : hasPool afterHonest.1.world 100 (fun p => hasMining afterHonest.1.world (mine 121 100) (fun m =>
      hasToken afterHonest.1.world (vaultOf 100 101) (fun t => hasToken afterHonest.1.world 131 (fun u =>
        decide (p.rewardMint = 101 ∧ Demo.env.findVault 100 101 = some (vaultOf 100 101, p.bump) ∧ m.rewardPool = 100 ∧
          m.owner = 121 ∧ p.depositAuthority = 110 ∧ u.owner = 121 ∧ t.frozen = false ∧ u.frozen = false ∧
          t.native = false ∧ t.mint = u.mint ∧ t.owner = 110 ∧ t.delegate ≠ some 110 ∧ t.amount + u.amount < 2 ^ 64 ∧
          (afterHonest.1.world 131).lamports < 2 ^ 64 ∧ (afterHonest.1.world 101).owner = Demo.env.tokenProgram ∧
            (afterHonest.1.world 110).owner ≠ Demo.env.tokenProgram))))) = true := by
    decide +kernel
  generalize afterHonest.1.world = w at h ⊢
  obtain ⟨p, hp, h⟩ := hasPool_sound h
  obtain ⟨m, hm, h⟩ := hasMining_sound h
  obtain ⟨t, ht, h⟩ := hasToken_sound h
  obtain ⟨u, hu, h⟩ := hasToken_sound h
  simp only [decide_eq_true_eq] at h
  obtain ⟨a1, a2, a3, a4, a5, a6, a7, a8, a9, a10, a11, a12, a13, a14, a15, a16⟩ := h
  exact ⟨p, m, t, u, rfl, hp, ⟨a1.symm, a15⟩, ⟨a2, ht⟩, ⟨hm, a3⟩, ⟨a4.symm, rfl⟩, ⟨a5.symm, rfl⟩,
    fun h => a16 h.1, ⟨hu, a6⟩, rfl,
    ⟨a7, a8, a9, a10, a11, a12, a13, a14⟩, by decide⟩

end Examples

/-! ## Counterexample -/

/-- Honest reports are not enough: stake delegated to a mining that is not up to date makes the pool insolvent. -/
theorem C63_false_not_prompt : ∃ s es L, LedgerRuns Demo.env 100 Demo.s0 [] es s L ∧ Insolvent s :=
  ⟨_, _, _, Demo.ledgerRun_eq (P := 100) (es := staleDelegate.map fun e => (e, 0)) (by decide +kernel),
    insolventB_sound (by decide +kernel)⟩

end Verif
