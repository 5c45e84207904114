import Verif.Spec.Share
import Verif.Lemmas.Ratio
import Verif.Lemmas.Incentive
/-!
What a mining with a certain share of the stake earns.
-/

namespace Verif

open Spec

variable {env : Env}

theorem total_pos {P : Key} {s : Chain} {e : Event} {p : Pool} (hw : Wf env s.now s.world) (hv : e.Valid env s)
    (hc : CleanEvent env s e) (hp : PoolAt env s.world P p) (hd : 0 < distributedBy env P s e) :
    0 < (totalOn p (midnight s.now)).toNat := by
  cases e with
  | ix accs i =>
    simp only [distributedBy, hp.2] at hd
    split at hd
    · rename_i hx
      unfold succeeded at hx
      split at hx
      · rename_i r hr
        have := distributed_pos hw hv hc (w' := r.1) (r := r.2) hr hp hd
        omega
      · cases hx
    · omega
  | _ => simp [distributedBy] at hd

/-- At most the share. -/
theorem share_most {a b D T x : Nat} (h : b * x ≤ a * T) : b * (10 ^ 16 * D / T * x) ≤ a * (10 ^ 16 * D) := by
  have h1 := Nat.div_mul_le_self (10 ^ 16 * D) T
  generalize 10 ^ 16 * D = R at *
  generalize R / T = u at *
  calc b * (u * x) = u * (b * x) := Nat.mul_left_comm _ _ _
    _ ≤ u * (a * T) := Nat.mul_le_mul_left _ h
    _ = a * (u * T) := Nat.mul_left_comm _ _ _
    _ ≤ a * R := Nat.mul_le_mul_left _ h1

/-- At least the share, but for the rounding. -/
theorem share_least {a b D T x : Nat} (hT : 0 < T) (h : a * T ≤ b * x) :
    a * (10 ^ 16 * D) ≤ b * (10 ^ 16 * D / T * x) + b * x := by
  have h1 := Nat.lt_div_mul_add (a := 10 ^ 16 * D) hT
  generalize 10 ^ 16 * D = R at *
  generalize R / T = u at *
  calc a * R ≤ a * (u * T + T) := Nat.mul_le_mul_left _ (Nat.le_of_lt h1)
    _ = (u + 1) * (a * T) := by rw [Nat.mul_left_comm, Nat.add_mul, Nat.one_mul]
    _ ≤ (u + 1) * (b * x) := Nat.mul_le_mul_left _ h
    _ = b * (u * x) + b * x := by rw [Nat.add_mul, Nat.one_mul, Nat.mul_left_comm]

theorem earned_none {P k : Key} {s : Chain} {e : Event} (hd : distributedBy env P s e = 0) : earnedBy env P k s e = 0 := by
  unfold earnedBy
  split
  · cases e with
    | ix accs i =>
      simp only [incomeBy]
      simp only [distributedBy] at hd
      split
      · rename_i p hp
        rw [hp] at hd
        simp only at hd
        split
        · rename_i hx
          rw [if_pos hx] at hd
          simp [incomeFrom, hd]
        · rfl
      · rfl
    | _ => rfl
  · rfl

theorem earned_most {a b : Nat} {P k : Key} {s s' : Chain} {es : List Event} (hw : Wf env s.now s.world)
    (h : RunsWith env (fun s e => CleanEvent env s e ∧ Shares env P k (fun x T => b * x ≤ a * T) s e) s es s') :
    b * totalIn env (earnedBy env P k) s es ≤ 10 ^ 16 * (a * totalIn env (distributedBy env P) s es) := by
  induction h with
  | nil => simp [totalIn]
  | @cons s s' e es hv hc _ ih =>
    have i1 := ih (wf_apply hw hv hc.1)
    simp only [totalIn, Nat.mul_add]
    have : b * earnedBy env P k s e ≤ 10 ^ 16 * (a * distributedBy env P s e) := by
      rcases Nat.eq_zero_or_pos (distributedBy env P s e) with h0 | h0
      · simp [earned_none h0]
      · obtain ⟨m, p, hm, hp, hx⟩ := hc.2 h0
        rw [earned_form hm hp, Nat.mul_left_comm (10 ^ 16) a]
        exact share_most hx
    omega

theorem earned_least {a b : Nat} {P k : Key} {s s' : Chain} {es : List Event} (hw : Wf env s.now s.world)
    (h : RunsWith env (fun s e => CleanEvent env s e ∧ Shares env P k (fun x T => a * T ≤ b * x) s e) s es s') :
    10 ^ 16 * (a * totalIn env (distributedBy env P) s es) ≤
      b * totalIn env (earnedBy env P k) s es + b * totalIn env (stakeIn env P k) s es := by
  induction h with
  | nil => simp [totalIn]
  | @cons s s' e es hv hc _ ih =>
    have i1 := ih (wf_apply hw hv hc.1)
    simp only [totalIn, Nat.mul_add]
    have : 10 ^ 16 * (a * distributedBy env P s e) ≤ b * earnedBy env P k s e + b * stakeIn env P k s e := by
      rcases Nat.eq_zero_or_pos (distributedBy env P s e) with h0 | h0
      · simp [h0]
      · obtain ⟨m, p, hm, hp, hx⟩ := hc.2 h0
        rw [earned_form hm hp, stakeIn_form hm, if_pos h0, Nat.mul_left_comm (10 ^ 16) a]
        exact share_least (total_pos hw hv hc.1 hp h0) hx
    omega

end Verif
