import Verif.Lemmas.Frozen

/-!
The frozen-core identity in spatial orbitals, and the removal of empty orbitals.
-/
namespace QF

theorem sum_two_mul {M : Type} [AddCommMonoid M] (f : ℕ → M) (n : ℕ) : ∑ p ∈ Finset.range (2 * n), f p = ∑ i ∈ Finset.range n, (f (2 * i) + f (2 * i + 1)) := by
  induction n with
  | zero => simp
  | succ n ih => rw [show 2 * (n + 1) = 2 * n + 1 + 1 by ring, Finset.sum_range_succ, Finset.sum_range_succ, ih, Finset.sum_range_succ, add_assoc]

theorem twoBody_congr {n : ℕ} {E E' : ℝ} {h h' : ℕ → ℕ → ℝ} {v v' : ℕ → ℕ → ℕ → ℕ → ℝ} (hE : E = E') (hh : ∀ p q, p < n → q < n → h p q = h' p q)
    (hv : ∀ p q r s, p < n → q < n → r < n → s < n → v p q r s = v' p q r s) : twoBodyOp n E h v = twoBodyOp n E' h' v' := by
  unfold twoBodyOp
  rw [hE]
  congr 1
  · congr 1
    refine Finset.sum_congr rfl fun p hp => Finset.sum_congr rfl fun q hq => ?_
    rw [Finset.mem_range] at hp hq
    rw [hh p q hp hq]
  · congr 1
    refine Finset.sum_congr rfl fun p hp => Finset.sum_congr rfl fun q hq => Finset.sum_congr rfl fun r hr => Finset.sum_congr rfl fun s hs => ?_
    rw [Finset.mem_range] at hp hq hr hs
    rw [hv p q r s hp hq hr hs]

theorem two_mod (i : ℕ) : (2 * i) % 2 = 0 ∧ (2 * i + 1) % 2 = 1 ∧ (2 * i) / 2 = i ∧ (2 * i + 1) / 2 = i := by omega

theorem frozen_spatial (f m : ℕ) (E : ℝ) (h : ℕ → ℕ → ℝ) (g : ℕ → ℕ → ℕ → ℕ → ℝ) (hs : ∀ i j k l, g i j k l = g k l i j) :
    coreAmps (2 * f) * spatialHam (f + m) E h g * withCore (2 * f) =
      spatialHam m (E + coreEnergy f h g) (fun i j => coreOei f h g (f + i) (f + j)) (fun i j k l => g (f + i) (f + j) (f + k) (f + l)) := by
  unfold spatialHam
  rw [show 2 * (f + m) = 2 * f + 2 * m by ring, frozen_core (even_two_mul f)]
  have sh : ∀ p, (2 * f + p) % 2 = p % 2 ∧ (2 * f + p) / 2 = f + p / 2 := fun p => by omega
  refine twoBody_congr ?_ ?_ ?_
  · rw [add_assoc]
    congr 1
    unfold coreEnergy
    congr 1
    · rw [sum_two_mul, Finset.mul_sum]
      refine Finset.sum_congr rfl fun i _ => ?_
      simp only [spinOne, two_mod, if_true]
      ring
    · rw [sum_two_mul, Finset.mul_sum]
      refine Finset.sum_congr rfl fun i _ => ?_
      rw [sum_two_mul, sum_two_mul, ← Finset.sum_add_distrib, Finset.mul_sum]
      refine Finset.sum_congr rfl fun j _ => ?_
      simp only [spinTwo, two_mod]
      norm_num
      ring
  · intro p q _ _
    simp only [spinOne, sh, coreOei]
    by_cases hpq : p % 2 = q % 2
    · rw [if_pos hpq, if_pos hpq]
      congr 1
      rw [sum_two_mul, Finset.mul_sum]
      refine Finset.sum_congr rfl fun i _ => ?_
      simp only [spinTwo, two_mod, sh, hpq]
      rw [hs i i, hs i (f + q / 2)]
      rcases Nat.mod_two_eq_zero_or_one q with h0 | h0 <;> simp [h0] <;> ring
    · rw [if_neg hpq, if_neg hpq, zero_add, Finset.sum_eq_zero, mul_zero]
      intro i _
      simp only [spinTwo, sh]
      have a1 : ¬ (i % 2 = i % 2 ∧ p % 2 = q % 2) := by omega
      have a2 : ¬ (i % 2 = q % 2 ∧ p % 2 = i % 2) := by omega
      have a3 : ¬ (p % 2 = q % 2 ∧ i % 2 = i % 2) := by omega
      have a4 : ¬ (p % 2 = i % 2 ∧ i % 2 = q % 2) := by omega
      simp [a2, a4, hpq]
  · intro p q r s _ _ _ _
    simp only [spinTwo, sh]

/-! ### empty orbitals -/

theorem ann_above {n q : ℕ} (hq : n ≤ q) {ψ : St} (hψ : OnReg n ψ) : aAnn q ψ = 0 := by
  funext I
  rw [ladder_apply]
  split_ifs with h
  · have hb : (flipBit I q).testBit q = true := by rw [testBit_flipBit, if_pos rfl, h]; rfl
    rw [hψ _ ((Nat.pow_le_pow_right (by omega) hq).trans (Nat.ge_two_pow_of_testBit hb)), mul_zero]; rfl
  · rfl

theorem dag_above {n p J : ℕ} (hp : n ≤ p) (hJ : J < 2 ^ n) (φ : St) : aDag p φ J = 0 := by
  rw [ladder_apply, if_neg]
  rw [Nat.testBit_lt_two_pow (hJ.trans_le (Nat.pow_le_pow_right (by omega) hp))]; decide

theorem one_above {n p q J : ℕ} {ψ : St} (hψ : OnReg n ψ) (hJ : J < 2 ^ n) (h : n ≤ p ∨ n ≤ q) : (aDag p * aAnn q) ψ J = 0 := by
  rw [Module.End.mul_apply]
  rcases h with h | h
  · exact dag_above h hJ _
  · rw [ann_above h hψ, map_zero]; rfl

theorem two_above {n p q r s J : ℕ} {ψ : St} (hψ : OnReg n ψ) (hJ : J < 2 ^ n) (h : n ≤ p ∨ n ≤ q ∨ n ≤ r ∨ n ≤ s) :
    (aDag p * aDag q * aAnn r * aAnn s) ψ J = 0 := by
  rcases h with h | h | h | h
  · rw [mul_assoc, mul_assoc, Module.End.mul_apply]; exact dag_above h hJ _
  · rw [swap_cre, mul_assoc, mul_assoc, LinearMap.neg_apply, Pi.neg_apply, Module.End.mul_apply, dag_above h hJ, neg_zero]
  · rw [swap_ann, LinearMap.neg_apply, Pi.neg_apply, Module.End.mul_apply, ann_above h hψ, map_zero]; exact neg_zero
  · rw [Module.End.mul_apply, ann_above h hψ, map_zero]; rfl

theorem sum_drop {n k : ℕ} {f : ℕ → ℂ} (h : ∀ p, n ≤ p → f p = 0) : ∑ p ∈ Finset.range (n + k), f p = ∑ p ∈ Finset.range n, f p := by
  rw [Finset.sum_range_add, Finset.sum_eq_zero (s := Finset.range k) (fun p _ => h (n + p) (by omega)), add_zero]

/-- orbitals above the register contribute nothing to matrix elements within it -/
theorem drop_empty (n k : ℕ) (E : ℝ) (h : ℕ → ℕ → ℝ) (v : ℕ → ℕ → ℕ → ℕ → ℝ) {ψ : St} (hψ : OnReg n ψ) {J : ℕ} (hJ : J < 2 ^ n) :
    twoBodyOp (n + k) E h v ψ J = twoBodyOp n E h v ψ J := by
  simp only [twoBodyOp, LinearMap.add_apply, LinearMap.sum_apply, LinearMap.smul_apply, Pi.add_apply, Finset.sum_apply, Pi.smul_apply]
  have z1 : ∀ p q, n ≤ p ∨ n ≤ q → (h p q : ℂ) • (aDag p * aAnn q) ψ J = 0 := fun p q hpq => by rw [one_above hψ hJ hpq, smul_zero]
  have z2 : ∀ p q r s, (n ≤ p ∨ n ≤ q ∨ n ≤ r ∨ n ≤ s) → (v p q r s : ℂ) • (aDag p * aDag q * aAnn r * aAnn s) ψ J = 0 := fun p q r s hh => by
    rw [two_above hψ hJ hh, smul_zero]
  congr 1
  · congr 1
    rw [sum_drop fun p hp => Finset.sum_eq_zero fun q _ => z1 p q (.inl hp)]
    exact Finset.sum_congr rfl fun p _ => sum_drop fun q hq => z1 p q (.inr hq)
  · congr 1
    rw [sum_drop fun p hp => Finset.sum_eq_zero fun q _ => Finset.sum_eq_zero fun r _ => Finset.sum_eq_zero fun s _ => z2 p q r s (.inl hp)]
    refine Finset.sum_congr rfl fun p _ => ?_
    rw [sum_drop fun q hq => Finset.sum_eq_zero fun r _ => Finset.sum_eq_zero fun s _ => z2 p q r s (.inr (.inl hq))]
    refine Finset.sum_congr rfl fun q _ => ?_
    rw [sum_drop fun r hr => Finset.sum_eq_zero fun s _ => z2 p q r s (.inr (.inr (.inl hr)))]
    exact Finset.sum_congr rfl fun r _ => sum_drop fun s hs => z2 p q r s (.inr (.inr (.inr hs)))

/-- **frozen core and frozen virtuals**: amplitude `J` of the active-space Hamiltonian applied to an active-space state is the amplitude of
the determinant with the core added, of the full Hamiltonian applied to the state with the core added -/
theorem frozen_active (f m k : ℕ) (E : ℝ) (h : ℕ → ℕ → ℝ) (g : ℕ → ℕ → ℕ → ℕ → ℝ) (hs : ∀ i j k l, g i j k l = g k l i j)
    {ψ : St} (hψ : OnReg (2 * m) ψ) {J : ℕ} (hJ : J < 2 ^ (2 * m)) :
    spatialHam (f + m + k) E h g (withCore (2 * f) ψ) (coreDet (2 * f) J) =
      spatialHam m (E + coreEnergy f h g) (fun i j => coreOei f h g (f + i) (f + j)) (fun i j k l => g (f + i) (f + j) (f + k) (f + l)) ψ J := by
  have e := frozen_spatial f (m + k) E h g hs
  have e' := congrArg (fun A : Op => A ψ J) e
  simp only [Module.End.mul_apply] at e'
  rw [coreAmps_apply] at e'
  rw [add_assoc, e']
  unfold spatialHam
  rw [show 2 * (m + k) = 2 * m + 2 * k by ring]
  exact drop_empty _ _ _ _ _ hψ hJ

end QF
