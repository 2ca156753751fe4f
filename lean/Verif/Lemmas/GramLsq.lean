import Verif.Lemmas.ApplyErr
import Verif.Lemmas.Excite

/-! Least squares with a Gram matrix: the normal equations always have a solution, and it is the nearest point of the real span. -/
namespace QF

theorem inner_sum_left (n : ℕ) {ι : Type} (s : Finset ι) (f : ι → St) (χ : St) : inner n (∑ i ∈ s, f i) χ = ∑ i ∈ s, inner n (f i) χ := by
  classical
  induction s using Finset.induction_on with
  | empty => simp [inner]
  | insert a s ha ih => rw [Finset.sum_insert ha, Finset.sum_insert ha, ← ih]; unfold inner; rw [← Finset.sum_add_distrib]; simp [add_mul]

theorem inner_sum_right (n : ℕ) {ι : Type} (s : Finset ι) (f : ι → St) (χ : St) : inner n χ (∑ i ∈ s, f i) = ∑ i ∈ s, inner n χ (f i) := by
  classical
  induction s using Finset.induction_on with
  | empty => simp [inner]
  | insert a s ha ih => rw [Finset.sum_insert ha, Finset.sum_insert ha, ← ih]; unfold inner; rw [← Finset.sum_add_distrib]; simp [mul_add]

/-- the real combination `Σ_{i<k} x_i v_i` -/
noncomputable def rcomb (k : ℕ) (v : ℕ → St) (x : ℕ → ℝ) : St := ∑ i ∈ Finset.range k, ((x i : ℝ) : ℂ) • v i

theorem rcomb_inner_left (n k : ℕ) (v : ℕ → St) (x : ℕ → ℝ) (χ : St) : (inner n (rcomb k v x) χ).re = ∑ i ∈ Finset.range k, x i * (inner n (v i) χ).re := by
  unfold rcomb
  rw [inner_sum_left, Complex.re_sum]
  refine Finset.sum_congr rfl fun i _ => ?_
  have : inner n (((x i : ℝ) : ℂ) • v i) χ = (x i : ℂ) * inner n (v i) χ := by
    unfold inner; rw [Finset.mul_sum]; refine Finset.sum_congr rfl fun I _ => ?_; simp; ring
  rw [this, Complex.re_ofReal_mul]

theorem re_inner_comm (n : ℕ) (φ ψ : St) : (inner n φ ψ).re = (inner n ψ φ).re := by
  have : inner n φ ψ = (starRingEnd ℂ) (inner n ψ φ) := by
    unfold inner; rw [map_sum]; refine Finset.sum_congr rfl fun I _ => ?_; simp [mul_comm]
  rw [this, Complex.conj_re]

theorem rcomb_inner_right (n k : ℕ) (v : ℕ → St) (x : ℕ → ℝ) (χ : St) : (inner n χ (rcomb k v x)).re = ∑ i ∈ Finset.range k, x i * (inner n χ (v i)).re := by
  rw [re_inner_comm, rcomb_inner_left]
  exact Finset.sum_congr rfl fun i _ => by rw [re_inner_comm]

theorem nrm_sq_re (n : ℕ) (ψ : St) : nrm n ψ ^ 2 = (inner n ψ ψ).re := by rw [← nrm_sq_inner, Complex.ofReal_re]

theorem re_inner_zero {n : ℕ} {φ : St} (h : (inner n φ φ).re = 0) (χ : St) : (inner n φ χ).re = 0 := by
  have h0 : nrm n φ = 0 := by rw [← nrm_sq_re] at h; exact pow_eq_zero_iff (two_ne_zero) |>.1 h
  have := inner_le n φ χ
  rw [h0, zero_mul] at this
  have : inner n φ χ = 0 := norm_le_zero_iff.1 this
  rw [this]; rfl

theorem linear_zero {p q : ℝ} (h : ∀ t : ℝ, 0 ≤ 2 * t * p + t ^ 2 * q) : p = 0 := by
  by_contra hp
  have hq : 0 ≤ q := by
    by_contra hq
    have := h 1; have := h (-1); nlinarith
  rcases hq.eq_or_lt with hq | hq
  · have := h (-p); rw [← hq] at this; nlinarith [mul_self_pos.2 hp]
  · have := h (-p / q)
    have e : 2 * (-p / q) * p + (-p / q) ^ 2 * q = -(p * p / q) := by field_simp; ring
    rw [e] at this
    have : 0 < p * p / q := div_pos (mul_self_pos.2 hp) hq
    linarith

/-- a minimiser of `|S x - b|²` solves `S x = b` when `S` is the Gram matrix of `v` and `b` the products with a fixed vector -/
theorem gram_solves {n k : ℕ} {v : ℕ → St} {w : St} {S : ℕ → ℕ → ℝ} {b x : ℕ → ℝ} (hS : ∀ i < k, ∀ j < k, S i j = (inner n (v i) (v j)).re)
    (hb : ∀ i < k, b i = (inner n (v i) w).re)
    (hx : ∀ y : ℕ → ℝ, ∑ i ∈ Finset.range k, (∑ j ∈ Finset.range k, S i j * x j - b i) ^ 2 ≤ ∑ i ∈ Finset.range k, (∑ j ∈ Finset.range k, S i j * y j - b i) ^ 2) :
    ∀ i < k, ∑ j ∈ Finset.range k, S i j * x j = b i := by
  set r : ℕ → ℝ := fun i => ∑ j ∈ Finset.range k, S i j * x j - b i with hr
  have hSr : ∀ (z : ℕ → ℝ), ∀ i < k, ∑ j ∈ Finset.range k, S i j * z j = (inner n (v i) (rcomb k v z)).re := by
    intro z i hi
    rw [rcomb_inner_right]
    exact Finset.sum_congr rfl fun j hj => by rw [hS i hi j (Finset.mem_range.1 hj), mul_comm]
  have h0 : ∑ i ∈ Finset.range k, r i * ∑ j ∈ Finset.range k, S i j * r j = 0 := by
    refine linear_zero (q := ∑ i ∈ Finset.range k, (∑ j ∈ Finset.range k, S i j * r j) ^ 2) fun t => ?_
    have := hx (fun j => x j + t * r j)
    have e : ∀ i, ∑ j ∈ Finset.range k, S i j * (x j + t * r j) - b i = r i + t * ∑ j ∈ Finset.range k, S i j * r j := by
      intro i
      rw [hr, Finset.mul_sum]
      simp only [mul_add, Finset.sum_add_distrib]
      rw [show (∑ j ∈ Finset.range k, S i j * (t * (∑ l ∈ Finset.range k, S j l * x l - b j))) = ∑ j ∈ Finset.range k, t * (S i j * (∑ l ∈ Finset.range k, S j l * x l - b j)) from
        Finset.sum_congr rfl fun j _ => by ring]
      ring
    simp only [e] at this
    rw [Finset.sum_congr rfl (fun i _ => show (r i + t * ∑ j ∈ Finset.range k, S i j * r j) ^ 2 =
      r i ^ 2 + 2 * t * (r i * ∑ j ∈ Finset.range k, S i j * r j) + t ^ 2 * (∑ j ∈ Finset.range k, S i j * r j) ^ 2 by ring),
      Finset.sum_add_distrib, Finset.sum_add_distrib, ← Finset.mul_sum, ← Finset.mul_sum] at this
    linarith
  have h1 : (inner n (rcomb k v r) (rcomb k v r)).re = 0 := by
    rw [rcomb_inner_left, ← h0]
    exact Finset.sum_congr rfl fun i hi => by rw [hSr r i (Finset.mem_range.1 hi)]
  have h2 : ∑ i ∈ Finset.range k, r i * r i = 0 := by
    have e1 : ∑ i ∈ Finset.range k, r i * ∑ j ∈ Finset.range k, S i j * x j = 0 := by
      rw [← re_inner_zero h1 (rcomb k v x), rcomb_inner_left]
      exact Finset.sum_congr rfl fun i hi => by rw [hSr x i (Finset.mem_range.1 hi)]
    have e2 : ∑ i ∈ Finset.range k, r i * b i = 0 := by
      rw [← re_inner_zero h1 w, rcomb_inner_left]
      exact Finset.sum_congr rfl fun i hi => by rw [hb i (Finset.mem_range.1 hi)]
    rw [show ∑ i ∈ Finset.range k, r i * r i = ∑ i ∈ Finset.range k, (r i * (∑ j ∈ Finset.range k, S i j * x j) - r i * b i) from
      Finset.sum_congr rfl fun i _ => by rw [hr]; ring, Finset.sum_sub_distrib, e1, e2, sub_zero]
  intro i hi
  have := (Finset.sum_eq_zero_iff_of_nonneg (fun i _ => mul_self_nonneg (r i))).1 h2 i (Finset.mem_range.2 hi)
  have := mul_self_eq_zero.1 this
  rw [hr] at this
  simp only at this; linarith

/-- a solution of the normal equations is the nearest point -/
theorem gram_nearest {n k : ℕ} {v : ℕ → St} {w : St} {x : ℕ → ℝ}
    (hx : ∀ i < k, ∑ j ∈ Finset.range k, (inner n (v i) (v j)).re * x j = (inner n (v i) w).re) (y : ℕ → ℝ) :
    nrm n (w - rcomb k v x) ≤ nrm n (w - rcomb k v y) := by
  refine (sq_le_sq₀ (nrm_nonneg _ _) (nrm_nonneg _ _)).1 ?_
  rw [nrm_sq_re, nrm_sq_re]
  have ortho : ∀ z : ℕ → ℝ, (inner n (rcomb k v z) (w - rcomb k v x)).re = 0 := by
    intro z
    rw [rcomb_inner_left]
    refine Finset.sum_eq_zero fun i hi => ?_
    have e : inner n (v i) (w - rcomb k v x) = inner n (v i) w - inner n (v i) (rcomb k v x) := by unfold inner; rw [← Finset.sum_sub_distrib]; simp [mul_sub]
    rw [e, Complex.sub_re, rcomb_inner_right, ← hx i (Finset.mem_range.1 hi),
      show (∑ j ∈ Finset.range k, (inner n (v i) (v j)).re * x j) = ∑ j ∈ Finset.range k, x j * (inner n (v i) (v j)).re from Finset.sum_congr rfl fun j _ => mul_comm _ _]
    ring
  have e : w - rcomb k v y = (w - rcomb k v x) + rcomb k v (fun i => x i - y i) := by
    unfold rcomb
    rw [show (∑ i ∈ Finset.range k, (((x i - y i : ℝ)) : ℂ) • v i) = ∑ i ∈ Finset.range k, (((x i : ℝ) : ℂ) • v i - ((y i : ℝ) : ℂ) • v i) from
      Finset.sum_congr rfl fun i _ => by push_cast; rw [sub_smul], Finset.sum_sub_distrib]
    abel
  rw [e]
  set d := rcomb k v (fun i => x i - y i)
  set u := w - rcomb k v x
  have e2 : inner n (u + d) (u + d) = inner n u u + inner n u d + (inner n d u + inner n d d) := by
    unfold inner; rw [← Finset.sum_add_distrib, ← Finset.sum_add_distrib, ← Finset.sum_add_distrib]
    refine Finset.sum_congr rfl fun I _ => ?_
    simp only [Pi.add_apply, map_add]; ring
  rw [e2]
  simp only [Complex.add_re]
  rw [re_inner_comm n u d, ortho (fun i => x i - y i)]
  have := nrm_sq_re n d
  nlinarith [sq_nonneg (nrm n d)]

end QF
