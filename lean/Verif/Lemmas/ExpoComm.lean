import Verif.Props.Expo
import Mathlib.Analysis.Normed.Ring.InfiniteSum
import Mathlib.Analysis.Normed.Module.FiniteDimension

namespace QF

/-! ### exponentials of sums of commuting involutions -/

theorem isExp_zero : IsExp 0 1 := by
  have := isExp_scalar 0
  simpa using this

theorem add_scalar_pow (X : Op) (c : ℂ) (n : ℕ) (ψ : St) (I : ℕ) :
    ((n.factorial : ℂ))⁻¹ * ((X + c • (1 : Op)) ^ n) ψ I =
      ∑ k ∈ Finset.range (n + 1), (((k.factorial : ℂ))⁻¹ * (X ^ k) ψ I) * ((((n - k).factorial : ℂ))⁻¹ * c ^ (n - k)) := by
  have hcomm : Commute X (c • (1 : Op)) := (Commute.one_right X).smul_right c
  rw [hcomm.add_pow, LinearMap.sum_apply, Finset.sum_apply, Finset.mul_sum]
  refine Finset.sum_congr rfl fun k hk => ?_
  have hk' : k ≤ n := Nat.lt_succ_iff.1 (Finset.mem_range.1 hk)
  have e : ∀ (a : ℕ) (m : ℕ), ((X ^ k * (c • (1 : Op)) ^ m * (a : Op)) ψ) I = a * (c ^ m * (X ^ k) ψ I) := by
    intro a m
    have h1 : ((c • (1 : Op)) ^ m) = c ^ m • (1 : Op) := by rw [smul_pow, one_pow]
    have h2 : ((a : Op)) = (a : ℂ) • (1 : Op) := by
      rw [← nsmul_one, Nat.cast_smul_eq_nsmul]
    rw [h1, h2]
    simp
  rw [e]
  have h3 : (n.choose k : ℂ) = n.factorial / (k.factorial * (n - k).factorial) := Nat.cast_choose ℂ hk'
  rw [h3]
  have f1 : (n.factorial : ℂ) ≠ 0 := by exact_mod_cast n.factorial_ne_zero
  have f2 : (k.factorial : ℂ) ≠ 0 := by exact_mod_cast k.factorial_ne_zero
  have f3 : ((n - k).factorial : ℂ) ≠ 0 := by exact_mod_cast (n - k).factorial_ne_zero
  field_simp

/-- shifting the exponent by a number multiplies the exponential by a number -/
theorem isExp_add_scalar {X U : Op} (h : IsExp X U) (c : ℂ) : IsExp (X + c • (1 : Op)) (Complex.exp c • U) := by
  intro ψ I
  have h1 := h ψ I
  have h2 := Complex.hasSum_exp_series c
  have h3 := hasSum_sum_range_mul_of_summable_norm h1.summable.norm h2.summable.norm
  rw [h1.tsum_eq, h2.tsum_eq] at h3
  convert! h3 using 1
  · funext n; exact add_scalar_pow X c n ψ I
  · simp [mul_comm]

theorem add_invol_pow {X P : Op} (hP : P * P = 1) (hc : Commute X P) (z : ℂ) (n : ℕ) (ψ : St) (I : ℕ) :
    ((X + z • P) ^ n) ψ I = ((X + z • (1 : Op)) ^ n) ((1 / 2 : ℂ) • (ψ + P ψ)) I + ((X + (-z) • (1 : Op)) ^ n) ((1 / 2 : ℂ) • (ψ - P ψ)) I := by
  have hPP : ∀ φ : St, P (P φ) = φ := fun φ => congrFun (congrArg DFunLike.coe hP) φ
  have hXP : ∀ φ : St, P (X φ) = X (P φ) := fun φ => (congrFun (congrArg DFunLike.coe hc.eq) φ).symm
  induction n generalizing ψ with
  | zero => simp; ring
  | succ n ih =>
    rw [pow_succ, pow_succ, pow_succ, Module.End.mul_apply, Module.End.mul_apply, Module.End.mul_apply, ih]
    have e1 : (1 / 2 : ℂ) • ((X + z • P) ψ + P ((X + z • P) ψ)) = (X + z • (1 : Op)) ((1 / 2 : ℂ) • (ψ + P ψ)) := by
      simp only [LinearMap.add_apply, LinearMap.smul_apply, map_add, map_smul, Module.End.one_apply, hPP, hXP]
      module
    have e2 : (1 / 2 : ℂ) • ((X + z • P) ψ - P ((X + z • P) ψ)) = (X + (-z) • (1 : Op)) ((1 / 2 : ℂ) • (ψ - P ψ)) := by
      simp only [LinearMap.add_apply, LinearMap.smul_apply, map_add, map_sub, map_smul, Module.End.one_apply, hPP, hXP]
      module
    rw [e1, e2]

theorem isExp_add_invol {X U P : Op} (h : IsExp X U) (hP : P * P = 1) (hc : Commute X P) (z : ℂ) :
    IsExp (X + z • P) (U * (Complex.cosh z • (1 : Op) + Complex.sinh z • P)) := by
  intro ψ I
  have h1 := isExp_add_scalar h z ((1 / 2 : ℂ) • (ψ + P ψ)) I
  have h2 := isExp_add_scalar h (-z) ((1 / 2 : ℂ) • (ψ - P ψ)) I
  have h3 := h1.add h2
  convert! h3 using 1
  · funext n; rw [add_invol_pow hP hc, mul_add]
  · simp only [LinearMap.smul_apply, Module.End.mul_apply, map_add, map_sub, map_smul, LinearMap.add_apply,
      Module.End.one_apply, Pi.add_apply, Pi.smul_apply, Pi.sub_apply, smul_eq_mul, Complex.cosh, Complex.sinh]
    ring

/-- the exponential of an involution commutes with everything the involution commutes with -/
theorem isExp_commute_invol {P V W : Op} (hP : P * P = 1) {z : ℂ} (hV : IsExp (z • P) V) (h : Commute W P) : Commute W V := by
  rw [hV.unique (isExp_invol hP z)]
  exact ((Commute.one_right W).smul_right _).add_right (h.smul_right _)

theorem isExp_add_commuting {X U P V : Op} (h : IsExp X U) (hP : P * P = 1) (hc : Commute X P) {z : ℂ} (hV : IsExp (z • P) V) :
    IsExp (X + z • P) (U * V) := by
  rw [hV.unique (isExp_invol hP z)]
  exact isExp_add_invol h hP hc z

/-- what commutes with `X` and every term of an exponential series of commuting involutions: the product of the exponentials, in
any order, is the exponential of the sum -/
theorem isExp_applyInOrder : ∀ (L : List (ℂ × Op)) (Us : List Op), (∀ t ∈ L, t.2 * t.2 = 1) →
    (∀ s ∈ L, ∀ t ∈ L, Commute s.2 t.2) → List.Forall₂ (fun t U => IsExp (t.1 • t.2) U) L Us →
    IsExp (L.map fun t => t.1 • t.2).sum (applyInOrder Us) ∧ ∀ W : Op, (∀ t ∈ L, Commute W t.2) → Commute W (applyInOrder Us)
  | [], _, _, _, h => by
    cases h
    exact ⟨by simpa [applyInOrder] using isExp_zero, fun W _ => Commute.one_right W⟩
  | t :: L, _, hi, hc, h => by
    cases h with
    | cons hU h =>
    rename_i U Us
    obtain ⟨ih1, ih2⟩ := isExp_applyInOrder L Us (fun s hs => hi s (by simp [hs])) (fun s hs u hu => hc s (by simp [hs]) u (by simp [hu])) h
    have hX : Commute (L.map fun t => t.1 • t.2).sum t.2 := by
      refine Commute.list_sum_left _ _ ?_
      intro A hA
      obtain ⟨s, hs, rfl⟩ := List.mem_map.1 hA
      exact (hc s (by simp [hs]) t (by simp)).smul_left _
    refine ⟨?_, fun W hW => ?_⟩
    · rw [List.map_cons, List.sum_cons, add_comm]
      exact isExp_add_commuting ih1 (hi t (by simp)) hX hU
    · exact (ih2 W fun s hs => hW s (by simp [hs])).mul_right (isExp_commute_invol (hi t (by simp)) hU (hW t (by simp)))

end QF
