import Mathlib.Analysis.Normed.Algebra.Exponential
import Mathlib.Analysis.SpecialFunctions.Exponential
import Mathlib.Analysis.Calculus.MeanValue
import Mathlib.Analysis.Calculus.Deriv.Pow

/-!
First-order Trotter error in a Banach algebra: it is controlled by the commutators of the terms.
-/
namespace QF

open NormedSpace

variable {𝔸 : Type*} [NormedRing 𝔸] [NormedAlgebra ℝ 𝔸] [CompleteSpace 𝔸]

/-- `exp (s X)` is a contraction for every real `s` -/
def ExpContr (X : 𝔸) : Prop := ∀ s : ℝ, ‖exp (s • X)‖ ≤ 1

theorem exp_mul_neg (X : 𝔸) (s : ℝ) : exp (s • X) * exp (-(s • X)) = 1 ∧ exp (-(s • X)) * exp (s • X) = 1 := by
  let _ := NormedAlgebra.restrictScalars ℚ ℝ 𝔸
  rw [← exp_add_of_commute (Commute.refl _).neg_right, ← exp_add_of_commute (Commute.refl _).neg_left]
  simp

theorem hasDerivAt_exp_neg (X : 𝔸) (s : ℝ) : HasDerivAt (fun u : ℝ => exp (-(u • X))) (-(X * exp (-(s • X)))) s := by
  have := hasDerivAt_exp_smul_const' (𝕂 := ℝ) (-X) s
  simpa [smul_neg] using this

omit [NormedAlgebra ℝ 𝔸] [CompleteSpace 𝔸] in
theorem norm_mul3 {A B C : 𝔸} (hA : ‖A‖ ≤ 1) (hC : ‖C‖ ≤ 1) : ‖A * B * C‖ ≤ ‖B‖ := by
  refine le_trans (norm_mul_le _ _) ?_
  refine le_trans (mul_le_of_le_one_right (norm_nonneg _) hC) ?_
  exact le_trans (norm_mul_le _ _) (mul_le_of_le_one_left (norm_nonneg _) hA)

omit [CompleteSpace 𝔸] in
theorem ExpContr.neg {X : 𝔸} (h : ExpContr X) (s : ℝ) : ‖exp (-(s • X))‖ ≤ 1 := by
  have := h (-s)
  rwa [neg_smul] at this

/-- `‖[exp (s X), Y]‖ ≤ s ‖[X, Y]‖` -/
theorem norm_comm_exp {X : 𝔸} (Y : 𝔸) (hX : ExpContr X) {s : ℝ} (hs : 0 ≤ s) :
    ‖exp (s • X) * Y - Y * exp (s • X)‖ ≤ s * ‖X * Y - Y * X‖ := by
  have hd : ∀ u : ℝ, HasDerivAt (fun u : ℝ => exp (u • X) * Y * exp (-(u • X)))
      (exp (u • X) * (X * Y - Y * X) * exp (-(u • X))) u := by
    intro u
    have h := ((hasDerivAt_exp_smul_const (𝕂 := ℝ) X u).mul_const Y).mul (hasDerivAt_exp_neg X u)
    refine h.congr_deriv ?_
    noncomm_ring
  have h := norm_image_sub_le_of_norm_deriv_le_segment' (f := fun u : ℝ => exp (u • X) * Y * exp (-(u • X)))
    (f' := fun u => exp (u • X) * (X * Y - Y * X) * exp (-(u • X))) (a := 0) (b := s) (C := ‖X * Y - Y * X‖)
    (fun u _ => (hd u).hasDerivWithinAt) (fun u _ => norm_mul3 (hX u) (hX.neg u)) s ⟨hs, le_rfl⟩
  simp only [zero_smul, neg_zero, exp_zero, one_mul, mul_one, sub_zero] at h
  have e : exp (s • X) * Y - Y * exp (s • X) = (exp (s • X) * Y * exp (-(s • X)) - Y) * exp (s • X) := by
    rw [sub_mul, mul_assoc (exp (s • X) * Y), (exp_mul_neg X s).2, mul_one]
  rw [e]
  refine le_trans (norm_mul_le _ _) (le_trans (mul_le_of_le_one_right (norm_nonneg _) (hX s)) ?_)
  linarith

/-- `‖exp X exp Y - exp (X + Y)‖ ≤ ‖[X, Y]‖ / 2` -/
theorem norm_exp_mul_sub {X Y : 𝔸} (hX : ExpContr X) (hY : ExpContr Y) (hS : ExpContr (X + Y)) :
    ‖exp X * exp Y - exp (X + Y)‖ ≤ ‖X * Y - Y * X‖ / 2 := by
  set c := ‖X * Y - Y * X‖ with hc
  let f : ℝ → 𝔸 := fun s => exp (-(s • (X + Y))) * (exp (s • X) * exp (s • Y)) - 1
  let f' : ℝ → 𝔸 := fun s => exp (-(s • (X + Y))) * (exp (s • X) * Y - Y * exp (s • X)) * exp (s • Y)
  have hd : ∀ u : ℝ, HasDerivAt f (f' u) u := by
    intro u
    have h1 := (hasDerivAt_exp_smul_const (𝕂 := ℝ) (-(X + Y)) u)
    simp only [smul_neg] at h1
    have h := (h1.mul ((hasDerivAt_exp_smul_const' (𝕂 := ℝ) X u).mul (hasDerivAt_exp_smul_const' (𝕂 := ℝ) Y u))).sub_const 1
    refine h.congr_deriv ?_
    simp only [f', Pi.mul_apply]
    noncomm_ring
  have hB : ∀ u : ℝ, HasDerivAt (fun u : ℝ => c / 2 * u ^ 2) (c * u) u := by
    intro u
    refine ((hasDerivAt_pow 2 u).const_mul (c / 2)).congr_deriv ?_
    simp; ring
  have := image_norm_le_of_norm_deriv_right_le_deriv_boundary (f := f) (f' := f') (a := 0) (b := 1)
    (fun u _ => (hd u).continuousAt.continuousWithinAt) (fun u _ => (hd u).hasDerivWithinAt)
    (B := fun u : ℝ => c / 2 * u ^ 2) (B' := fun u => c * u) (by simp [f]) hB
    (fun u hu => by
      refine le_trans (norm_mul3 (hS.neg u) (hY u)) ?_
      rw [mul_comm]
      exact norm_comm_exp Y hX hu.1) (x := 1) ⟨by norm_num, le_rfl⟩
  simp only [f, one_smul, one_pow, mul_one] at this
  have e : exp X * exp Y - exp (X + Y) = exp (X + Y) * (exp (-(X + Y)) * (exp X * exp Y) - 1) := by
    have := (exp_mul_neg (X + Y) 1).1
    rw [one_smul] at this
    rw [mul_sub, ← mul_assoc, this, one_mul, mul_one]
  rw [e]
  have h1 := hS 1
  rw [one_smul] at h1
  refine le_trans (norm_mul_le _ _) (le_trans (mul_le_of_le_one_left (norm_nonneg _) h1) ?_)
  linarith

/-- the product of exponentials, the head rightmost -/
noncomputable def prodExp : List 𝔸 → 𝔸
  | [] => 1
  | X :: Xs => prodExp Xs * exp X

/-- the commutators of the terms -/
noncomputable def commSum : List 𝔸 → ℝ
  | [] => 0
  | X :: Xs => ‖Xs.sum * X - X * Xs.sum‖ / 2 + commSum Xs

theorem norm_prodExp_sub (K : AddSubmonoid 𝔸) (hK : ∀ X ∈ K, ExpContr X) (Xs : List 𝔸) (h : ∀ X ∈ Xs, X ∈ K) :
    Xs.sum ∈ K ∧ ‖prodExp Xs - exp Xs.sum‖ ≤ commSum Xs := by
  induction Xs with
  | nil => exact ⟨K.zero_mem, by simp [prodExp, commSum]⟩
  | cons X Xs ih =>
    obtain ⟨h1, h2⟩ := ih fun Y hY => h Y (by simp [hY])
    have hX := h X (by simp)
    have hS : Xs.sum + X ∈ K := K.add_mem h1 hX
    rw [List.sum_cons, add_comm]
    refine ⟨hS, ?_⟩
    have e : prodExp (X :: Xs) - exp (Xs.sum + X) = (prodExp Xs - exp Xs.sum) * exp X + (exp Xs.sum * exp X - exp (Xs.sum + X)) := by
      rw [prodExp]; noncomm_ring
    rw [e]
    refine le_trans (norm_add_le _ _) ?_
    have hx1 := hK X hX 1
    rw [one_smul] at hx1
    have t1 := le_trans (norm_mul_le (prodExp Xs - exp Xs.sum) (exp X)) (mul_le_of_le_one_right (norm_nonneg _) hx1)
    have t2 := norm_exp_mul_sub (hK _ h1) (hK X hX) (hK _ hS)
    rw [commSum]
    linarith

omit [CompleteSpace 𝔸] in
theorem norm_prodExp_le [NormOneClass 𝔸] (Xs : List 𝔸) (h : ∀ X ∈ Xs, ExpContr X) : ‖prodExp Xs‖ ≤ 1 := by
  induction Xs with
  | nil => simp [prodExp]
  | cons X Xs ih =>
    rw [prodExp]
    have := h X (by simp) 1
    rw [one_smul] at this
    exact le_trans (norm_mul_le _ _) (mul_le_one₀ (ih fun Y hY => h Y (by simp [hY])) (norm_nonneg _) this)

omit [NormedAlgebra ℝ 𝔸] [CompleteSpace 𝔸] in
theorem norm_pow_sub_pow [NormOneClass 𝔸] {A B : 𝔸} (hA : ‖A‖ ≤ 1) (hB : ‖B‖ ≤ 1) (N : ℕ) : ‖A ^ N - B ^ N‖ ≤ N * ‖A - B‖ := by
  induction N with
  | zero => simp
  | succ N ih =>
    have e : A ^ (N + 1) - B ^ (N + 1) = A ^ N * (A - B) + (A ^ N - B ^ N) * B := by
      rw [pow_succ, pow_succ]; noncomm_ring
    rw [e]
    refine le_trans (norm_add_le _ _) ?_
    have h1 : ‖A ^ N * (A - B)‖ ≤ 1 * ‖A - B‖ := by
      refine le_trans (norm_mul_le _ _) (mul_le_mul_of_nonneg_right ?_ (norm_nonneg _))
      exact le_trans (norm_pow_le _ _) (pow_le_one₀ (norm_nonneg _) hA)
    have h2 : ‖(A ^ N - B ^ N) * B‖ ≤ (N * ‖A - B‖) * 1 := by
      refine le_trans (norm_mul_le _ _) (mul_le_mul ih hB (norm_nonneg _) (by positivity))
    push_cast; linarith

/-- the Trotter error after `N` steps, all factors being contractions -/
theorem trotter_error [NormOneClass 𝔸] (K : AddSubmonoid 𝔸) (hK : ∀ X ∈ K, ExpContr X) (Xs : List 𝔸) (h : ∀ X ∈ Xs, X ∈ K) (N : ℕ) :
    ‖prodExp Xs ^ N - exp (N • Xs.sum)‖ ≤ N * commSum Xs := by
  let _ := NormedAlgebra.restrictScalars ℚ ℝ 𝔸
  rw [exp_nsmul]
  obtain ⟨h1, h2⟩ := norm_prodExp_sub K hK Xs h
  have h3 := hK _ h1 1
  rw [one_smul] at h3
  refine le_trans (norm_pow_sub_pow (norm_prodExp_le Xs fun X hX => hK X (h X hX)) h3 N) ?_
  gcongr

end QF
