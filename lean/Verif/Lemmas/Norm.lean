import Verif.Lemmas.Inner
import Mathlib.Analysis.InnerProductSpace.PiL2

namespace QF

/-- the register part of a state as a vector of Mathlib's Euclidean space -/
noncomputable def toE (n : ℕ) (ψ : St) : EuclideanSpace ℂ (Fin (2 ^ n)) := WithLp.toLp 2 fun i => ψ i

theorem nrm_eq (n : ℕ) (ψ : St) : nrm n ψ = ‖toE n ψ‖ := by
  rw [EuclideanSpace.norm_eq]
  unfold nrm
  congr 1
  rw [Finset.sum_range]
  rfl

theorem nrm_nonneg (n : ℕ) (ψ : St) : 0 ≤ nrm n ψ := Real.sqrt_nonneg _

theorem nrm_add_le (n : ℕ) (φ ψ : St) : nrm n (φ + ψ) ≤ nrm n φ + nrm n ψ := by
  rw [nrm_eq, nrm_eq, nrm_eq]
  exact norm_add_le (toE n φ) (toE n ψ)

theorem nrm_neg (n : ℕ) (ψ : St) : nrm n (-ψ) = nrm n ψ := by unfold nrm; simp

theorem nrm_sub_le (n : ℕ) (φ ψ : St) : nrm n (φ - ψ) ≤ nrm n φ + nrm n ψ := by
  rw [sub_eq_add_neg, ← nrm_neg n ψ]; exact nrm_add_le n φ (-ψ)

theorem nrm_smul (n : ℕ) (a : ℂ) (ψ : St) : nrm n (a • ψ) = ‖a‖ * nrm n ψ := by
  rw [nrm_eq, nrm_eq]
  exact norm_smul a (toE n ψ)

theorem nrm_zero (n : ℕ) : nrm n 0 = 0 := by unfold nrm; simp

theorem nrm_sq (n : ℕ) (ψ : St) : nrm n ψ ^ 2 = ∑ I ∈ Finset.range (2 ^ n), ‖ψ I‖ ^ 2 :=
  Real.sq_sqrt (Finset.sum_nonneg fun _ _ => by positivity)

theorem nrm_sq_inner (n : ℕ) (ψ : St) : ((nrm n ψ ^ 2 : ℝ) : ℂ) = inner n ψ ψ := by
  rw [nrm_sq]
  unfold inner
  rw [Complex.ofReal_sum]
  refine Finset.sum_congr rfl (fun I _ => ?_)
  rw [Complex.conj_mul']; norm_cast

theorem nrm_of_inner {n : ℕ} {φ ψ : St} (h : inner n φ φ = inner n ψ ψ) : nrm n φ = nrm n ψ := by
  rw [← nrm_sq_inner, ← nrm_sq_inner] at h
  have h' : nrm n φ ^ 2 = nrm n ψ ^ 2 := by exact_mod_cast h
  exact (pow_left_inj₀ (nrm_nonneg n φ) (nrm_nonneg n ψ) two_ne_zero).1 h'

theorem nrm_le_of_sq {n : ℕ} {φ ψ : St} {a : ℝ} (ha : 0 ≤ a)
    (h : ∑ I ∈ Finset.range (2 ^ n), ‖φ I‖ ^ 2 ≤ a ^ 2 * ∑ I ∈ Finset.range (2 ^ n), ‖ψ I‖ ^ 2) : nrm n φ ≤ a * nrm n ψ := by
  have h1 : nrm n φ ^ 2 ≤ (a * nrm n ψ) ^ 2 := by rw [mul_pow, nrm_sq, nrm_sq]; exact h
  exact (pow_le_pow_iff_left₀ (nrm_nonneg n φ) (mul_nonneg ha (nrm_nonneg n ψ)) two_ne_zero).1 h1

theorem nrm_unitary {n t c : ℕ} (ht : t < n) (hc : c < n) {m : Matrix (Fin 4) (Fin 4) ℂ} (hu : MatUnitary t c m) (ψ : St) :
    nrm n (matOp t c m ψ) = nrm n ψ := nrm_of_inner (inner_matOp ht hc hu ψ ψ)

/-- entries bounded by `ε` -/
theorem nrm_le_entries {n : ℕ} {ψ : St} {ε : ℝ} (hε : 0 ≤ ε) (h : ∀ I < 2 ^ n, ‖ψ I‖ ≤ ε) : nrm n ψ ≤ ε * Real.sqrt (2 ^ n) := by
  unfold nrm
  rw [← Real.sqrt_sq hε, ← Real.sqrt_mul (sq_nonneg ε)]
  apply Real.sqrt_le_sqrt
  calc ∑ I ∈ Finset.range (2 ^ n), ‖ψ I‖ ^ 2 ≤ ∑ _I ∈ Finset.range (2 ^ n), ε ^ 2 :=
        Finset.sum_le_sum fun I hI => pow_le_pow_left₀ (norm_nonneg _) (h I (Finset.mem_range.1 hI)) 2
    _ = ε ^ 2 * 2 ^ n := by rw [Finset.sum_const, Finset.card_range, nsmul_eq_mul]; push_cast; ring

theorem entry_le_nrm {n : ℕ} {ψ : St} {I : ℕ} (hI : I < 2 ^ n) : ‖ψ I‖ ≤ nrm n ψ := by
  apply Real.le_sqrt_of_sq_le
  exact Finset.single_le_sum (f := fun I => ‖ψ I‖ ^ 2) (fun _ _ => by positivity) (Finset.mem_range.2 hI)

/-- a matrix with small entries moves a state little -/
theorem nrm_matOp_small {n t c : ℕ} (ht : t < n) (hc : c < n) {d : Matrix (Fin 4) (Fin 4) ℂ} {ε : ℝ} (hε : 0 ≤ ε)
    (hd : ∀ i j, ‖d i j‖ ≤ ε) (ψ : St) : nrm n (matOp t c d ψ) ≤ 4 * ε * nrm n ψ := by
  have hn : ∀ i j, ‖d i j‖ ^ 2 ≤ ε ^ 2 := fun i j => pow_le_pow_left₀ (norm_nonneg _) (hd i j) 2
  refine nrm_le_of_sq (by positivity) ?_
  by_cases h : t = c
  · have e := sum_setBit ht (fun I => ((‖ψ I‖ ^ 2 : ℝ) : ℂ))
    have e' : ∑ I ∈ Finset.range (2 ^ n), (‖ψ (setBit I t false)‖ ^ 2 + ‖ψ (setBit I t true)‖ ^ 2) = 2 * ∑ I ∈ Finset.range (2 ^ n), ‖ψ I‖ ^ 2 := by
      exact_mod_cast e
    have key : ∀ I, ‖matOp t c d ψ I‖ ^ 2 ≤ 2 * ε ^ 2 * (‖ψ (setBit I t false)‖ ^ 2 + ‖ψ (setBit I t true)‖ ^ 2) := by
      intro I
      unfold matOp; rw [if_pos h, op1_apply]
      generalize ψ (setBit I t false) = x; generalize ψ (setBit I t true) = y
      have h1 := hd (ix1 (I.testBit t)) (ix1 false)
      have h2 := hd (ix1 (I.testBit t)) (ix1 true)
      have h3 : ‖toM2 d (I.testBit t) false * x + toM2 d (I.testBit t) true * y‖ ≤ ε * ‖x‖ + ε * ‖y‖ := by
        refine le_trans (norm_add_le _ _) ?_
        rw [norm_mul, norm_mul]
        exact add_le_add (mul_le_mul_of_nonneg_right h1 (norm_nonneg _)) (mul_le_mul_of_nonneg_right h2 (norm_nonneg _))
      have h4 := pow_le_pow_left₀ (norm_nonneg _) h3 2
      nlinarith [sq_nonneg (ε * ‖x‖ - ε * ‖y‖)]
    calc _ ≤ ∑ I ∈ Finset.range (2 ^ n), 2 * ε ^ 2 * (‖ψ (setBit I t false)‖ ^ 2 + ‖ψ (setBit I t true)‖ ^ 2) :=
          Finset.sum_le_sum fun I _ => key I
      _ = 4 * ε ^ 2 * ∑ I ∈ Finset.range (2 ^ n), ‖ψ I‖ ^ 2 := by rw [← Finset.mul_sum, e']; ring
      _ ≤ _ := by
        have : 0 ≤ ∑ I ∈ Finset.range (2 ^ n), ‖ψ I‖ ^ 2 := Finset.sum_nonneg fun _ _ => by positivity
        have : 0 ≤ ε ^ 2 * ∑ I ∈ Finset.range (2 ^ n), ‖ψ I‖ ^ 2 := by positivity
        nlinarith
  · have e := sum_setBit2 ht hc (fun I => ((‖ψ I‖ ^ 2 : ℝ) : ℂ))
    have key : ∀ I, ‖matOp t c d ψ I‖ ^ 2 ≤ 4 * ε ^ 2 * (‖ψ (setBit (setBit I c false) t false)‖ ^ 2 + ‖ψ (setBit (setBit I c false) t true)‖ ^ 2 +
        ‖ψ (setBit (setBit I c true) t false)‖ ^ 2 + ‖ψ (setBit (setBit I c true) t true)‖ ^ 2) := by
      intro I
      unfold matOp; rw [if_neg h, op2_apply]
      have hb : ∀ x y, ‖toM4 d (I.testBit c) (I.testBit t) x y‖ ≤ ε := fun x y => hd _ _
      generalize ψ (setBit (setBit I c false) t false) = x; generalize ψ (setBit (setBit I c false) t true) = y
      generalize ψ (setBit (setBit I c true) t false) = z; generalize ψ (setBit (setBit I c true) t true) = w
      have h3 : ‖toM4 d (I.testBit c) (I.testBit t) false false * x + toM4 d (I.testBit c) (I.testBit t) false true * y +
          toM4 d (I.testBit c) (I.testBit t) true false * z + toM4 d (I.testBit c) (I.testBit t) true true * w‖ ≤
          ε * ‖x‖ + ε * ‖y‖ + ε * ‖z‖ + ε * ‖w‖ := by
        refine le_trans (norm_add_le _ _) (add_le_add (le_trans (norm_add_le _ _) (add_le_add (le_trans (norm_add_le _ _) (add_le_add ?_ ?_)) ?_)) ?_) <;>
          (rw [norm_mul]; exact mul_le_mul_of_nonneg_right (hb _ _) (norm_nonneg _))
      have h4 := pow_le_pow_left₀ (norm_nonneg _) h3 2
      nlinarith [sq_nonneg (ε * ‖x‖ - ε * ‖y‖), sq_nonneg (ε * ‖x‖ - ε * ‖z‖), sq_nonneg (ε * ‖x‖ - ε * ‖w‖),
        sq_nonneg (ε * ‖y‖ - ε * ‖z‖), sq_nonneg (ε * ‖y‖ - ε * ‖w‖), sq_nonneg (ε * ‖z‖ - ε * ‖w‖)]
    have e' : ∑ I ∈ Finset.range (2 ^ n), (‖ψ (setBit (setBit I c false) t false)‖ ^ 2 + ‖ψ (setBit (setBit I c false) t true)‖ ^ 2 +
        ‖ψ (setBit (setBit I c true) t false)‖ ^ 2 + ‖ψ (setBit (setBit I c true) t true)‖ ^ 2) = 4 * ∑ I ∈ Finset.range (2 ^ n), ‖ψ I‖ ^ 2 := by
      exact_mod_cast e
    calc _ ≤ ∑ I ∈ Finset.range (2 ^ n), 4 * ε ^ 2 * (‖ψ (setBit (setBit I c false) t false)‖ ^ 2 + ‖ψ (setBit (setBit I c false) t true)‖ ^ 2 +
        ‖ψ (setBit (setBit I c true) t false)‖ ^ 2 + ‖ψ (setBit (setBit I c true) t true)‖ ^ 2) :=
          Finset.sum_le_sum fun I _ => key I
      _ = _ := by rw [← Finset.mul_sum, e']; ring

theorem matOp_sub (t c : ℕ) (m m' : Matrix (Fin 4) (Fin 4) ℂ) (ψ : St) : matOp t c m ψ - matOp t c m' ψ = matOp t c (m - m') ψ := by
  funext I
  unfold matOp
  split_ifs
  · simp only [Pi.sub_apply, op1_apply, toM2, Matrix.sub_apply]; ring
  · simp only [Pi.sub_apply, op2_apply, toM4, Matrix.sub_apply]; ring

theorem nrm_congr' {n : ℕ} {φ ψ : St} (h : ∀ I < 2 ^ n, φ I = ψ I) : nrm n φ = nrm n ψ := by
  unfold nrm
  congr 1
  exact Finset.sum_congr rfl fun I hI => by rw [h I (Finset.mem_range.1 hI)]

end QF
