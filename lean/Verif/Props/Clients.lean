import Verif.Lemmas.Clients
import Verif.Lemmas.WorldEffects
import Verif.Lemmas.DemoExec
import Verif.Spec.Access
/-!
Instruction data (C46, C47) and account lists (C48).
-/

namespace Verif

open Spec

section

variable {env : Env}

/-- C46.  The program decodes a byte string to an instruction exactly if it is the encoding of that instruction, all of
whose numbers are in range; everything else (unknown tags, missing or trailing bytes) is rejected. -/
theorem C46_decode {bs : Bytes} {i : Ix} : decodeIx bs = some i ↔ bs = encodeIx i ∧ InRange i := decodeIx_iff

/-- C46: decoding gives back what was encoded. -/
theorem C46_round_trip {i : Ix} (h : InRange i) : decodeIx (encodeIx i) = some i := decodeIx_iff.mpr ⟨rfl, h⟩

/-- C46: distinct instructions have distinct encodings. -/
theorem C46_injective {i j : Ix} (hi : InRange i) (hj : InRange j) (h : encodeIx i = encodeIx j) : i = j := by
  have h1 := C46_round_trip hi
  rw [h, C46_round_trip hj] at h1
  exact (Option.some.inj h1).symm

/-- C46: no encoding continues another: with bytes appended or missing it is rejected. -/
theorem C46_exact_length {i : Ix} (hi : InRange i) {extra : Bytes} (hne : extra ≠ []) :
    decodeIx (encodeIx i ++ extra) = none := by
  cases h : decodeIx (encodeIx i ++ extra) with
  | none => rfl
  | some j =>
    obtain ⟨h1, h2⟩ := decodeIx_iff.mp h
    have a1 := (readIx_accepts (encodeIx i ++ extra) i extra).mpr ⟨rfl, hi⟩
    have a2 := (readIx_accepts (encodeIx i ++ extra) j []).mpr ⟨by rw [List.append_nil]; exact h1, h2⟩
    rw [a1] at a2
    simp only [Option.some.injEq, Prod.mk.injEq] at a2
    exact absurd a2.2 hne

/-- C46: the first byte selects the instruction, in the documented order. -/
theorem C46_tag {i : Ix} {bs : Bytes} (h : decodeIx bs = some i) : bs.head? = some (number i) := by
  rw [(decodeIx_iff.mp h).1]
  cases i <;> rfl

/-- C46: the program does something only if the data encode an instruction, and then it does what that instruction does: calls with any
other data fail. -/
theorem C46_entrypoint {now : Nat} {w : World} {accs : List AccountInfo} {data : Bytes} {r : World × Option Nat} :
    entrypoint env now w accs data = .ok r ↔ ∃ i, data = encodeIx i ∧ InRange i ∧ exec env now w accs i = .ok r := by
  unfold entrypoint
  cases h : decodeIx data with
  | some i =>
    obtain ⟨h1, h2⟩ := decodeIx_iff.mp h
    refine ⟨fun e => ⟨i, h1, h2, e⟩, ?_⟩
    rintro ⟨j, e1, e2, e3⟩
    rw [decodeIx_iff.mpr ⟨e1, e2⟩] at h
    obtain rfl := Option.some.inj h
    exact e3
  | none =>
    refine ⟨nofun, ?_⟩
    rintro ⟨j, e1, e2, -⟩
    rw [decodeIx_iff.mpr ⟨e1, e2⟩] at h
    cases h

/-- C47.  For every instruction with arguments in range, the data bytes built by the generated clients (Rust and JS) decode
in the program to that instruction with those arguments. -/
theorem C47_client_data {i : Ix} (h : InRange i) : decodeIx (clientData i) = some i := by
  refine decodeIx_iff.mpr ⟨?_, h⟩
  have w8 : ∀ l : LockupPeriod, Arg.bytes (.period l) = writePeriod l := by intro l; cases l <;> rfl
  have wo : ∀ v : Option Nat, Arg.bytes (.optU64 v) = writeOptU64 v := by intro v; cases v <;> rfl
  have wu : ∀ v, Arg.bytes (.u64 v) = toLE 8 v := fun _ => rfl
  have wk : ∀ v, Arg.bytes (.key v) = toLE 32 v := fun _ => rfl
  cases i <;> simp only [clientData, clientArgs, encodeIx, List.flatMap_cons, List.flatMap_nil, w8, wo, wu, wk,
    writeU64, writeKey, List.append_assoc, List.append_nil] <;> rfl

/-- C47: sending the clients' data runs the instruction. -/
theorem C47_entrypoint {now : Nat} {w : World} {accs : List AccountInfo} {i : Ix} (h : InRange i) :
    entrypoint env now w accs (clientData i) = exec env now w accs i ∧
    entrypoint env now w accs (encodeIx i) = exec env now w accs i := by
  simp only [entrypoint, C47_client_data h, C46_round_trip h, and_self]

/-- C48, for the crate's builders: with the account list of the builder (privileges merged by the runtime, possibly with
further privileges from the transaction) every instruction does exactly what it does with all privileges: no signature
and no write access is missing from the list. -/
theorem C48_crate_builders_partial {now : Nat} {w : World} {accs : List AccountInfo} {i : Ix} {n : Names}
    (h : Grants (crateMetas env n i) accs) (hm : Merged accs) {r : World × Option Nat} :
    exec env now w accs i = .ok r ↔ exec env now w (allPrivileges accs) i = .ok r := crate_exec h hm

/-- C48: in particular if only the builder's instruction requests privileges. -/
theorem C48_crate_builders_merged_partial {now : Nat} {w : World} {i : Ix} {n : Names} {r : World × Option Nat} :
    exec env now w (mergePrivileges (crateMetas env n i)) i = .ok r ↔
      exec env now w (allPrivileges (crateMetas env n i)) i = .ok r := by
  have e : allPrivileges (mergePrivileges (crateMetas env n i)) = allPrivileges (crateMetas env n i) := by
    simp [allPrivileges, mergePrivileges]
  rw [crate_exec (grants_merge _) (merged_merge _), e]

/-- C48: the builders put every account into the position from which the program takes it. -/
theorem C48_crate_roles_partial {accs : List AccountInfo} {i : Ix} {n : Names} (h : Grants (crateMetas env n i) accs) :
    poolArg accs i = some n.rewardPool ∧
    (∀ k, miningArg accs i = some k → k = n.mining) ∧
    (∀ k, delegateArg accs i = some k → k = n.delegateMining ∨ ∃ a d, i = .changeDelegate a d ∧ k = n.newDelegateMining) ∧
    (∀ k, oldDelegateArg accs i = some k → k = n.oldDelegateMining) := by
  have get := grants_key h
  cases i <;> simp only [poolArg, miningArg, delegateArg, oldDelegateArg, get] <;>
    simp [crateMetas, writableMeta, readonlyMeta, eq_comm]

/-- C48, for the generated clients: the same holds for the eight instructions whose lists are right. -/
theorem C48_clients_partial {now : Nat} {w : World} {accs : List AccountInfo} {i : Ix} {n : Names}
    (hi : match i with
      | .depositMining .. | .withdrawMining .. | .extendStake .. | .closeMining => False
      | _ => True)
    (h : Grants (clientMetas env n i) accs) (hm : Merged accs) {r : World × Option Nat} :
    exec env now w accs i = .ok r ↔ exec env now w (allPrivileges accs) i = .ok r := by
  have e : clientMetas env n i = crateMetas env n i := by cases i <;> first | exact hi.elim | rfl
  exact crate_exec (e ▸ h) hm

/-- C48: the clients' deposit and withdraw work as well if the stake is not delegated. -/
theorem C48_clients_own_stake_partial {now : Nat} {w : World} {accs : List AccountInfo} {i : Ix} {n : Names}
    (hi : (∃ a l o d, i = .depositMining a l o d) ∨ ∃ a o d, i = .withdrawMining a o d)
    (h : Grants (clientMetas env n i) accs) (hm : Merged accs) (hd : n.delegateMining = n.mining)
    {r : World × Option Nat} :
    exec env now w accs i = .ok r ↔ exec env now w (allPrivileges accs) i = .ok r := by
  have e : clientMetas env n i = [writableMeta n.rewardPool false, writableMeta n.mining false,
      readonlyMeta n.depositAuthority true, readonlyMeta n.delegateMining false] := by
    rcases hi with ⟨_, _, _, _, rfl⟩ | ⟨_, _, _, rfl⟩ <;> rfl
  have e' : crateMetas env n i = [writableMeta n.rewardPool false, writableMeta n.mining false,
      readonlyMeta n.depositAuthority true, writableMeta n.delegateMining false] := by
    rcases hi with ⟨_, _, _, _, rfl⟩ | ⟨_, _, _, rfl⟩ <;> rfl
  rw [e] at h
  refine crate_exec (n := n) ?_ hm
  rw [e']
  obtain ⟨a, _, rfl, a1, a2, a3, h⟩ := grants_cons h
  obtain ⟨b, _, rfl, b1, b2, b3, h⟩ := grants_cons h
  obtain ⟨c, _, rfl, c1, c2, c3, h⟩ := grants_cons h
  obtain ⟨d, _, rfl, d1, d2, d3, h⟩ := grants_cons h
  cases grants_nil h
  refine ⟨⟨a1, a2, a3⟩, ⟨b1, b2, b3⟩, ⟨c1, c2, c3⟩, ⟨d1, d2, fun _ => ?_⟩, trivial⟩
  have hbd : b.key = d.key := by
    rw [b1, d1]
    exact hd.symm
  rw [← (hm b (by simp) d (by simp) hbd).2]
  exact b3 rfl

end

/-! ### The remaining four lists of the generated clients -/

section

variable {env : Env}

theorem storeMining_changes {a : Account} {m x : Mining} (hv : viewMining env a.content = some m) (hne : x ≠ m)
    (hp : ∀ q, a.content ≠ .pool q) : storeMining env a x ≠ a := by
  intro h
  unfold storeMining at h
  have hx : viewMining env a.content ≠ some x := by rw [hv]; simpa using Ne.symm hne
  rw [if_neg hx] at h
  split at h
  · rename_i p hc; exact hp p hc
  · have : Content.mining x = a.content := congrArg Account.content h
    rw [← this] at hx
    exact hx rfl

/-- C48 is false of the generated clients: their ExtendStake never succeeds, in any state and with any arguments (the
reward mint sits where the program expects the deposit authority). -/
theorem C48_client_extendStake_false {now : Nat} {w : World} {n : Names} (hn : n.rewardMint ≠ n.depositAuthority)
    {ol nl : LockupPeriod} {ts b a : Nat} {o d : Key} {r : World × Option Nat} :
    exec env now w (mergePrivileges (clientMetas env n (.extendStake ol nl ts b a o d)))
      (.extendStake ol nl ts b a o d) ≠ .ok r := by
  intro h
  obtain ⟨w', ret⟩ := r
  have hp := (exec_ok.mp h).1
  simp only [process, res_bind_ok, res_pure_ok, Prod.mk.injEq] at hp
  obtain ⟨w1, hp, rfl, -⟩ := hp
  obtain ⟨P, M, A, D, p, m, dm, p', m', d', hc, -⟩ := processExtendStake_ok hp
  obtain ⟨rest, hacc⟩ := hc.accs_eq
  have hA : A ∈ mergePrivileges (clientMetas env n (.extendStake ol nl ts b a o d)) := by rw [hacc]; simp
  have hk : A.key = n.rewardMint := by
    have := congrArg (fun l => l[2]?.map (·.key)) hacc
    exact (Option.some.inj this).symm
  obtain ⟨x, hx, hxk, hxs⟩ := (mem_merge hA).1.mp hc.signed
  rw [hk] at hxk
  simp only [clientMetas, writableMeta, readonlyMeta, List.mem_cons, List.not_mem_nil, or_false] at hx
  rcases hx with rfl | rfl | rfl | rfl | rfl <;> simp_all

/-- C48 is false of the generated clients: their CloseMining never succeeds (the mining is not marked writable). -/
theorem C48_client_closeMining_false {now : Nat} {w : World} {n : Names}
    (hs : RealSigners (mergePrivileges (clientMetas env n .closeMining))) {r : World × Option Nat} :
    exec env now w (mergePrivileges (clientMetas env n .closeMining)) .closeMining ≠ .ok r := by
  intro h
  obtain ⟨w', ret⟩ := r
  obtain ⟨hp, hro⟩ := exec_ok.mp h
  simp only [process, res_bind_ok, res_pure_ok, Prod.mk.injEq] at hp
  obtain ⟨w1, hp, rfl, -⟩ := hp
  obtain ⟨M, O, T, A, P, rest, p, m, m1, hacc, h1, h2, h3, h4, h5, h6, h7, h8, h9, h10, h11, h12, h13, h14, h15, h16, rfl⟩ :=
    processCloseMining_ok hp
  have hM : M ∈ mergePrivileges (clientMetas env n .closeMining) := by rw [hacc]; simp
  have hO : O ∈ mergePrivileges (clientMetas env n .closeMining) := by rw [hacc]; simp
  have key : ∀ j : Nat, ((mergePrivileges (clientMetas env n .closeMining))[j]?).map AccountInfo.key =
      ((M :: O :: T :: A :: P :: rest)[j]?).map AccountInfo.key := fun j => by rw [hacc]
  have kM : n.mining = M.key := Option.some.inj (key 0)
  have kT : n.target = T.key := Option.some.inj (key 2)
  have kP : n.rewardPool = P.key := Option.some.inj (key 4)
  have neT : M.key ≠ T.key := by
    intro e
    rw [e, h3] at h1
    exact env.program_ne_system h1.symm
  have hw : M.isWritable = false := by
    rw [Bool.eq_false_iff]
    intro hw
    obtain ⟨x, hx, hxk, hxw⟩ := (mem_merge hM).2.mp hw
    simp only [clientMetas, writableMeta, readonlyMeta, List.mem_cons, List.not_mem_nil, or_false] at hx
    rcases hx with rfl | rfl | rfl | rfl | rfl <;> simp_all
  have := congrArg Account.content (hro M hM hw)
  simp only [World.set, if_true] at this
  rw [← this] at h11
  simp only [viewMining, Option.some.injEq] at h11
  subst h11
  exact hs O hO h2 h12.symm

/-- C48 is false of the generated clients: their DepositMining and WithdrawMining never succeed for a delegated stake (the
delegate's mining is not marked writable). -/
theorem C48_client_delegate_false {now : Nat} {w : World} (hw : Wf env now w) {n : Names} {i : Ix} {a : Nat} (ha : a ≠ 0)
    (hi : (∃ l o d, i = .depositMining a l o d) ∨ ∃ o d, i = .withdrawMining a o d)
    (hs : RealSigners (mergePrivileges (clientMetas env n i))) (hd : n.delegateMining ≠ n.mining) {r : World × Option Nat} :
    exec env now w (mergePrivileges (clientMetas env n i)) i ≠ .ok r := by
  intro h
  obtain ⟨w', ret⟩ := r
  obtain ⟨hp, hro⟩ := exec_ok.mp h
  have e : clientMetas env n i = [writableMeta n.rewardPool false, writableMeta n.mining false,
      readonlyMeta n.depositAuthority true, readonlyMeta n.delegateMining false] := by
    rcases hi with ⟨_, _, _, rfl⟩ | ⟨_, _, rfl⟩ <;> rfl
  have fin : ∀ {o d : Key} {P M A D : AccountInfo} {p p' : Pool} {m m' : Mining} {dm dm' : Option Mining},
      StakeCall env w (mergePrivileges (clientMetas env n i)) o d P M A D p m dm →
      w' = putDelegate env (putMining env (putPool w P.key p') M.key m') D.key dm' →
      (∃ c : Int, c ≠ 0 ∧ DelegateMoved now c dm dm') → False := by
    intro o d P M A D p p' m m' dm dm' hc hw' ⟨c, hc0, hmv⟩
    obtain ⟨rest, hacc⟩ := hc.accs_eq
    have key : ∀ j : Nat, ((mergePrivileges (clientMetas env n i))[j]?).map AccountInfo.key =
        ((P :: M :: A :: D :: rest)[j]?).map AccountInfo.key := fun j => by rw [hacc]
    rw [e] at key
    have kM : n.mining = M.key := Option.some.inj (key 1)
    have kP : n.rewardPool = P.key := Option.some.inj (key 0)
    have kD : n.delegateMining = D.key := Option.some.inj (key 3)
    have hD : D ∈ mergePrivileges (clientMetas env n i) := by rw [hacc]; simp
    rcases hc.delegate with ⟨e1, -⟩ | ⟨ne, x, rfl, hx⟩
    · exact hd (by rw [kM, kD, e1])
    have hf : D.isWritable = false := by
      rw [Bool.eq_false_iff]
      intro hwr
      obtain ⟨y, hy, hyk, hyw⟩ := (mem_merge hD).2.mp hwr
      have hne := hx.ne_pool
      rw [e] at hy
      simp only [writableMeta, readonlyMeta, List.mem_cons, List.not_mem_nil, or_false] at hy
      rcases hy with rfl | rfl | rfl | rfl <;> simp_all
    cases dm' with
    | none => exact hmv.elim
    | some x' =>
      have hs' : (x'.stakeFromOthers : Int) = x.stakeFromOthers + c := hmv.1
      have := hro D hD hf
      rw [hw'] at this
      simp only [putDelegate, putMining, World.set, if_true, if_neg (Ne.symm ne), putPool, if_neg hx.ne_pool] at this
      refine storeMining_changes hx.view ?_ (fun q => (delegate_slot hw hc.del_owned hx).2 q) this
      rintro rfl
      omega
  rcases hi with ⟨l, o, d, rfl⟩ | ⟨o, d, rfl⟩
  · simp only [process, res_bind_ok, res_pure_ok, Prod.mk.injEq] at hp
    obtain ⟨w1, hp, rfl, -⟩ := hp
    obtain ⟨P, M, A, D, p, m, dm, p', m', dm', hc, hdep, rfl⟩ := processDepositMining_ok hp
    obtain ⟨hg, hm, hdel⟩ := hc.facts hw hs
    obtain ⟨_, _, -, -, -, -, hmv⟩ := deposit_effect hg.ok hm hdel hdep
    exact fin hc rfl ⟨a, by omega, hmv⟩
  · simp only [process, res_bind_ok, res_pure_ok, Prod.mk.injEq] at hp
    obtain ⟨w1, hp, rfl, -⟩ := hp
    obtain ⟨P, M, A, D, p, m, dm, p', m', dm', hc, hwd, rfl⟩ := processWithdrawMining_ok hp
    obtain ⟨hg, hm, hdel⟩ := hc.facts hw hs
    obtain ⟨-, -, -, -, hmv⟩ := withdraw_effect hg.ok hm hdel hwd
    exact fin hc rfl ⟨-a, by omega, hmv⟩

end

/-! ### Examples -/

namespace Demo

/-- The accounts of the first staker, whose stake is delegated to the second. -/
def names : Names where
  rewardPool := 100
  rewardMint := 101
  vault := vaultOf 100 101
  payer := 102
  depositAuthority := 110
  fillAuthority := 112
  distributeAuthority := 111
  source := 113
  mining := mine 120 100
  miningOwner := 120
  userToken := 130
  delegateMining := mine 121 100
  oldDelegateMining := mine 121 100
  newDelegateMining := mine 120 100
  target := 102

/-- An instruction built by the crate, as the runtime passes it. -/
def built (n : Names) (i : Ix) : Event := .ix (mergePrivileges (crateMetas env n i)) i

/-- The same with the clients' account list. -/
def builtByClient (n : Names) (i : Ix) : Event := .ix (mergePrivileges (clientMetas env n i)) i

/-- The instructions of the history used in other examples, all built by the crate: they all succeed. -/
def builtStory : List Event :=
  [built names (.initializePool 112 111), built names (.initializeMining 120),
   built { names with mining := mine 121 100 } (.initializeMining 121),
   built { names with mining := mine 121 100 } (.depositMining 1000 .flex 121 121),
   built names (.depositMining 500 .oneYear 120 121), built names (.fillVault 10000 (day0 + 10 * DAY)),
   built names .distributeRewards, .tick DAY, built names .distributeRewards, .tick 1000, built names .claim,
   built names (.slash 120 10 60 (some (day0 + 365 * DAY))), built names (.decreaseRewards 120 100),
   built { names with mining := mine 121 100, miningOwner := 121 } (.withdrawMining 100 121 121),
   built { names with newDelegateMining := mine 120 100 } (.changeDelegate 500 120), .tick (365 * DAY),
   built { names with delegateMining := mine 120 100 } (.extendStake .oneYear .threeMonths (day0 + 100) 400 50 120 120)]

example : (run s0 builtStory).isSome = true := by decide +kernel

/-- The crate's CloseMining succeeds for a fresh mining, the clients' does not. -/
example : (run s0 [built names (.initializePool 112 111), built names (.initializeMining 120),
    built names .closeMining]).isSome = true := by decide +kernel

example : (run s0 [built names (.initializePool 112 111), built names (.initializeMining 120),
    builtByClient names .closeMining]).isSome = false := by decide +kernel

/-- The eight other instructions work with the clients' lists, as do deposit and withdraw without delegation. -/
def clientStory : List Event :=
  [builtByClient names (.initializePool 112 111), builtByClient names (.initializeMining 120),
   builtByClient { names with mining := mine 121 100 } (.initializeMining 121),
   builtByClient { names with mining := mine 121 100 } (.depositMining 1000 .flex 121 121),
   builtByClient names (.fillVault 10000 (day0 + 10 * DAY)),
   builtByClient names .distributeRewards, .tick DAY, builtByClient names .distributeRewards, .tick 1000,
   builtByClient { names with mining := mine 121 100, miningOwner := 121, userToken := 131 } .claim,
   builtByClient { names with mining := mine 121 100 } (.slash 121 10 10 none),
   builtByClient { names with mining := mine 121 100 } (.decreaseRewards 121 0),
   builtByClient { names with mining := mine 121 100 } (.withdrawMining 100 121 121),
   builtByClient { names with mining := mine 121 100, miningOwner := 121, oldDelegateMining := mine 121 100 }
     (.changeDelegate 500 120)]

example : (run s0 clientStory).isSome = true := by decide +kernel

/-- The hypotheses of `C48_client_extendStake_false`, `C48_client_closeMining_false` and `C48_client_delegate_false` are
met: a reachable state in which the crate's lists work. -/
example : names.rewardMint ≠ names.depositAuthority ∧ names.delegateMining ≠ names.mining ∧
    Wf env afterStory.now afterStory.world ∧
    RealSigners (mergePrivileges (clientMetas env names .closeMining)) ∧
    RealSigners (mergePrivileges (clientMetas env names (.depositMining 5 .flex 120 121))) ∧
    okEvent afterStory (built names (.depositMining 5 .flex 120 121)) = true ∧
    okEvent afterStory (built names (.extendStake .flex .oneYear (day0 + 100) 5 5 120 121)) = true ∧
    okEvent afterStory (builtByClient names (.depositMining 5 .flex 120 121)) = false := by
  refine ⟨by decide, by decide, reachable_wf afterStory_reachable, ?_, ?_, by decide +kernel, by decide +kernel,
    by decide +kernel⟩
  · unfold RealSigners; decide
  · unfold RealSigners; decide

/-- C46 and C47 on a slash with an expiry date: 1 + 32 + 8 + 8 + 9 bytes. -/
example : InRange (.slash 120 10 60 (some 1759536000)) ∧ (encodeIx (.slash 120 10 60 (some 1759536000))).length = 58 := by
  refine ⟨⟨by decide, by decide, by decide, fun x hx => by cases hx; decide⟩, by decide⟩

end Demo

end Verif
