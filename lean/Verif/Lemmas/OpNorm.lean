import Verif.Lemmas.Norm
import Verif.Lemmas.TrotterBanach
import Verif.Lemmas.Expo
import Mathlib.Analysis.InnerProductSpace.Adjoint
import Mathlib.Analysis.CStarAlgebra.Basic

/-!
The register part of an operator as a bounded operator of a Hilbert space.
-/
namespace QF

open NormedSpace

/-- the Hilbert space of an `n`-qubit register -/
abbrev HS (n : ℕ) := EuclideanSpace ℂ (Fin (2 ^ n))

/-- `A` is bounded by `b` on the `n`-qubit register -/
def Bd (n : ℕ) (A : Op) (b : ℝ) : Prop := ∀ ψ, nrm n (A ψ) ≤ b * nrm n ψ

/-- `toE` as a linear map -/
noncomputable def toEL (n : ℕ) : St →ₗ[ℂ] HS n where
  toFun := toE n
  map_add' _ _ := rfl
  map_smul' _ _ := rfl

/-- a vector of the register as a state -/
noncomputable def ofE (n : ℕ) : HS n →ₗ[ℂ] St where
  toFun v I := if h : I < 2 ^ n then v ⟨I, h⟩ else 0
  map_add' v w := by funext I; by_cases h : I < 2 ^ n <;> simp [h]
  map_smul' c v := by funext I; by_cases h : I < 2 ^ n <;> simp [h]

theorem toE_ofE {n : ℕ} (v : HS n) : toE n (ofE n v) = v := by
  ext i
  simp [toE, ofE]

/-- the register part of an operator -/
noncomputable def comp (n : ℕ) (A : Op) : HS n →L[ℂ] HS n := LinearMap.toContinuousLinearMap (toEL n ∘ₗ A ∘ₗ ofE n)

theorem comp_apply (n : ℕ) (A : Op) (v : HS n) : comp n A v = toE n (A (ofE n v)) := rfl

theorem comp_toE {n : ℕ} {A : Op} {b : ℝ} (h : Bd n A b) (ψ : St) : comp n A (toE n ψ) = toE n (A ψ) := by
  rw [comp_apply]
  have h1 := h (ofE n (toE n ψ) - ψ)
  have h2 : nrm n (ofE n (toE n ψ) - ψ) = 0 := by
    rw [nrm_eq]
    have : toE n (ofE n (toE n ψ) - ψ) = toE n (ofE n (toE n ψ)) - toE n ψ := rfl
    rw [this, toE_ofE, sub_self, norm_zero]
  rw [h2, mul_zero] at h1
  have h3 := le_antisymm h1 (nrm_nonneg _ _)
  rw [nrm_eq, norm_eq_zero, map_sub] at h3
  exact sub_eq_zero.1 h3

theorem norm_comp_le {n : ℕ} {A : Op} {b : ℝ} (h : Bd n A b) (hb : 0 ≤ b) : ‖comp n A‖ ≤ b := by
  refine ContinuousLinearMap.opNorm_le_bound _ hb fun v => ?_
  rw [comp_apply, ← nrm_eq]
  refine le_trans (h _) ?_
  rw [nrm_eq, toE_ofE]

theorem comp_add (n : ℕ) (A B : Op) : comp n (A + B) = comp n A + comp n B := rfl
theorem comp_smul (n : ℕ) (c : ℂ) (A : Op) : comp n (c • A) = c • comp n A := rfl
theorem comp_zero (n : ℕ) : comp n 0 = 0 := rfl
theorem comp_one (n : ℕ) : comp n 1 = 1 := by
  ext v : 1
  exact toE_ofE v
theorem comp_mul {n : ℕ} {A : Op} {b : ℝ} (h : Bd n A b) (B : Op) : comp n (A * B) = comp n A * comp n B := by
  ext v : 1
  rw [mul_apply_eq_comp, comp_apply n B, comp_toE h]; rfl
theorem Bd.mul {n : ℕ} {A B : Op} {a b : ℝ} (hA : Bd n A a) (hB : Bd n B b) (ha : 0 ≤ a) : Bd n (A * B) (a * b) := fun ψ => by
  refine le_trans (hA (B ψ)) ?_
  rw [mul_assoc]
  exact mul_le_mul_of_nonneg_left (hB ψ) ha
theorem Bd.one (n : ℕ) : Bd n 1 1 := fun ψ => by simp
theorem Bd.pow {n : ℕ} {A : Op} {a : ℝ} (hA : Bd n A a) (ha : 0 ≤ a) (k : ℕ) : Bd n (A ^ k) (a ^ k) := by
  induction k with
  | zero => simpa using Bd.one n
  | succ k ih => rw [pow_succ, pow_succ]; exact ih.mul hA (by positivity)
theorem comp_pow {n : ℕ} {A : Op} {a : ℝ} (hA : Bd n A a) (ha : 0 ≤ a) (k : ℕ) : comp n (A ^ k) = comp n A ^ k := by
  induction k with
  | zero => simpa using comp_one n
  | succ k ih => rw [pow_succ, pow_succ, comp_mul (hA.pow ha k), ih]

/-- the series of an amplitude of the register sums to the exponential of the register part -/
theorem hasSum_comp {n : ℕ} {A : Op} {a : ℝ} (hA : Bd n A a) (ha : 0 ≤ a) (ψ : St) (i : Fin (2 ^ n)) :
    HasSum (fun k : ℕ => ((k.factorial : ℂ))⁻¹ * (A ^ k) ψ i) (exp (comp n A) (toE n ψ) i) := by
  have h := exp_series_hasSum_exp' (𝕂 := ℂ) (comp n A)
  have h2 := ((ContinuousLinearMap.apply ℂ (HS n) (toE n ψ)).hasSum h)
  have h3 := (EuclideanSpace.proj (𝕜 := ℂ) i : HS n →L[ℂ] ℂ).hasSum h2
  refine h3.congr_fun fun k => ?_
  have e : (comp n A ^ k) (toE n ψ) = toE n ((A ^ k) ψ) := by
    rw [← comp_pow hA ha, comp_toE (hA.pow ha k)]
  simp only [ContinuousLinearMap.apply_apply, e, map_smul, smul_eq_mul]
  rfl

/-- the register part of the exponential is the exponential of the register part -/
theorem IsExp.toE_eq {n : ℕ} {A U : Op} (h : IsExp A U) {a : ℝ} (hA : Bd n A a) (ha : 0 ≤ a) (ψ : St) :
    toE n (U ψ) = exp (comp n A) (toE n ψ) := by
  ext i
  exact (h ψ i).unique (hasSum_comp hA ha ψ i)

theorem IsExp.comp_eq {n : ℕ} {A U : Op} (h : IsExp A U) {a : ℝ} (hA : Bd n A a) (ha : 0 ≤ a) : comp n U = exp (comp n A) := by
  ext v : 1
  rw [comp_apply, h.toE_eq hA ha, toE_ofE]

/-- an operator that is bounded on all large registers has an exponential -/
theorem exists_isExp {n : ℕ} {A : Op} (h : ∀ m, n ≤ m → ∃ a, 0 ≤ a ∧ Bd m A a) : ∃ U, IsExp A U := by
  have hs : ∀ (ψ : St) (I : ℕ), Summable (fun k : ℕ => ((k.factorial : ℂ))⁻¹ * (A ^ k) ψ I) := by
    intro ψ I
    obtain ⟨a, ha, hA⟩ := h (max n I) (le_max_left _ _)
    exact (hasSum_comp hA ha ψ ⟨I, lt_of_lt_of_le Nat.lt_two_pow_self (Nat.pow_le_pow_right (by norm_num) (le_max_right _ _))⟩).summable
  refine ⟨{ toFun := fun ψ I => ∑' k : ℕ, ((k.factorial : ℂ))⁻¹ * (A ^ k) ψ I, map_add' := ?_, map_smul' := ?_ }, ?_⟩
  · intro φ ψ
    funext I
    simp only [map_add, Pi.add_apply, mul_add]
    exact (hs φ I).tsum_add (hs ψ I)
  · intro c ψ
    funext I
    simp only [map_smul, Pi.smul_apply, smul_eq_mul, RingHom.id_apply]
    rw [← tsum_mul_left]
    exact tsum_congr fun k => by ring
  · intro ψ I
    exact (hs ψ I).hasSum

theorem inner_toE (n : ℕ) (φ ψ : St) : Inner.inner ℂ (toE n φ) (toE n ψ) = inner n φ ψ := by
  rw [PiLp.inner_apply, inner, Finset.sum_range]
  refine Finset.sum_congr rfl fun i _ => ?_
  simp [toE, mul_comm]

/-- `A` is anti-hermitian on the `n`-qubit register -/
def AntiHerm (n : ℕ) (A : Op) : Prop := ∀ φ ψ, inner n φ (A ψ) = -inner n (A φ) ψ

theorem AntiHerm.skew {n : ℕ} {A : Op} (h : AntiHerm n A) : comp n A ∈ skewAdjoint (HS n →L[ℂ] HS n) := by
  rw [skewAdjoint.mem_iff]
  symm
  rw [ContinuousLinearMap.star_eq_adjoint, ContinuousLinearMap.eq_adjoint_iff]
  intro x y
  rw [← toE_ofE x, ← toE_ofE y, neg_apply, inner_neg_left, comp_apply, comp_apply, toE_ofE, toE_ofE]
  conv_lhs => rw [← toE_ofE y]
  conv_rhs => rw [← toE_ofE x]
  rw [inner_toE, inner_toE, h]

theorem skew_contr {n : ℕ} {X : HS n →L[ℂ] HS n} (h : X ∈ skewAdjoint (HS n →L[ℂ] HS n)) : ExpContr X := by
  intro s
  have h1 : s • X ∈ skewAdjoint (HS n →L[ℂ] HS n) := skewAdjoint.smul_mem s h
  let _ := NormedAlgebra.restrictScalars ℚ ℂ (HS n →L[ℂ] HS n)
  have := NormedSpace.exp_mem_unitary_of_mem_skewAdjoint h1
  exact le_of_eq (CStarRing.norm_of_mem_unitary this)

end QF
