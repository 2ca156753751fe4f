import Verif.Props.QPE
import Mathlib.Analysis.SpecialFunctions.Trigonometric.Bounds
import Mathlib.Analysis.SpecialFunctions.Complex.CircleAddChar

/-!
The distribution of the number read by phase estimation.
-/
namespace QF

theorem tail_range (E : ℝ) (hE : 1 / 2 < E) (M : ℕ) : ∑ j ∈ Finset.range M, 1 / (E + j) ^ 2 ≤ 1 / (E - 1 / 2) - 1 / (E + M - 1 / 2) := by
  induction M with
  | zero => simp
  | succ M ih =>
    rw [Finset.sum_range_succ]
    have hM : (0 : ℝ) ≤ M := Nat.cast_nonneg M
    have h1 : 0 < E + M - 1 / 2 := by linarith
    have h2 : 0 < E + M + 1 / 2 := by linarith
    have h3 : 0 < E + M := by linarith
    have : 1 / (E + M) ^ 2 ≤ 1 / (E + M - 1 / 2) - 1 / (E + M + 1 / 2) := by
      rw [div_sub_div _ _ h1.ne' h2.ne', div_le_div_iff₀ (by positivity) (by positivity)]
      nlinarith
    push_cast
    rw [show E + ((M : ℝ) + 1) - 1 / 2 = E + M + 1 / 2 by ring]
    linarith

theorem tail_sum {α : Type} (S : Finset α) (j : α → ℕ) (hj : Set.InjOn j S) (E : ℝ) (hE : 1 / 2 < E) (f : α → ℝ)
    (hf : ∀ x ∈ S, f x ≤ 1 / (E + j x) ^ 2) : ∑ x ∈ S, f x ≤ 1 / (E - 1 / 2) := by
  classical
  obtain ⟨M, hM⟩ := (S.image j).bddAbove
  calc ∑ x ∈ S, f x ≤ ∑ x ∈ S, 1 / (E + j x) ^ 2 := Finset.sum_le_sum hf
    _ = ∑ k ∈ S.image j, 1 / (E + (k : ℕ)) ^ 2 := (Finset.sum_image (f := fun k : ℕ => 1 / (E + (k : ℝ)) ^ 2) hj).symm
    _ ≤ ∑ k ∈ Finset.range (M + 1), 1 / (E + (k : ℕ)) ^ 2 := by
      refine Finset.sum_le_sum_of_subset_of_nonneg (fun k hk => ?_) fun k _ _ => by positivity
      have := hM hk
      exact Finset.mem_range.2 (by omega)
    _ ≤ 1 / (E - 1 / 2) - 1 / (E + (M + 1 : ℕ) - 1 / 2) := tail_range E hE _
    _ ≤ 1 / (E - 1 / 2) := by
      have : (0 : ℝ) ≤ (M + 1 : ℕ) := Nat.cast_nonneg _
      have : 0 ≤ 1 / (E + (M + 1 : ℕ) - 1 / 2) := by apply div_nonneg <;> linarith
      linarith

theorem ee_int (k : ℤ) : ee k = 1 := by
  unfold ee
  rw [Complex.exp_eq_one_iff]
  exact ⟨k, by push_cast; ring⟩

theorem norm_ee (x : ℝ) : ‖ee x‖ = 1 := by
  unfold ee
  rw [show (2 * Real.pi * Complex.I * x : ℂ) = ((2 * Real.pi * x : ℝ) : ℂ) * Complex.I by push_cast; ring, Complex.norm_exp_ofReal_mul_I]

theorem norm_ee_sub_one (k : ℤ) (δ : ℝ) (hδ : |δ| ≤ 1 / 2) : 4 * |δ| ≤ ‖ee (k + δ) - 1‖ := by
  rw [ee_add, ee_int, one_mul]
  unfold ee
  rw [show (2 * Real.pi * Complex.I * δ : ℂ) = Complex.I * ((2 * Real.pi * δ : ℝ) : ℂ) by push_cast; ring, Complex.norm_exp_I_mul_ofReal_sub_one,
    norm_mul, show 2 * Real.pi * δ / 2 = Real.pi * δ by ring, Real.norm_eq_abs, Real.norm_eq_abs]
  have h1 : |Real.sin (Real.pi * δ)| = Real.sin (Real.pi * |δ|) := by
    have hp := Real.pi_pos
    rcases le_total 0 δ with h | h
    · rw [abs_of_nonneg h]
      rw [abs_of_nonneg h] at hδ
      exact abs_of_nonneg (Real.sin_nonneg_of_nonneg_of_le_pi (by positivity) (by nlinarith))
    · rw [abs_of_nonpos h]
      rw [abs_of_nonpos h] at hδ
      rw [show Real.pi * δ = -(Real.pi * -δ) by ring, Real.sin_neg, abs_neg]
      exact abs_of_nonneg (Real.sin_nonneg_of_nonneg_of_le_pi (by nlinarith) (by nlinarith))
  have h2 := Real.mul_le_sin (x := Real.pi * |δ|) (by positivity) (by nlinarith [Real.pi_pos])
  rw [h1]
  have : 2 / Real.pi * (Real.pi * |δ|) = 2 * |δ| := by field_simp
  rw [this] at h2
  have h3 : |(2 : ℝ)| = 2 := abs_of_pos (by norm_num)
  rw [h3]
  linarith

/-- the amplitude of a number at circular distance `u` from the phase -/
theorem qpeAmp_le (a : ℕ) (φ : ℝ) (x : ℕ) (k : ℤ) (u : ℝ) (hu : 2 ^ a * φ - x = 2 ^ a * k + u) (h0 : u ≠ 0) (hh : |u| ≤ 2 ^ a / 2) :
    ‖qpeAmp a φ x‖ ^ 2 ≤ 1 / 4 * (1 / u ^ 2) := by
  have hN : (0 : ℝ) < 2 ^ a := by positivity
  set δ := u / 2 ^ a with hδ
  have e : φ - x / 2 ^ a = k + δ := by
    rw [hδ]; field_simp; linarith
  have hδ' : |δ| ≤ 1 / 2 := by
    rw [hδ, abs_div, abs_of_pos hN, div_le_iff₀ hN]; linarith
  have hpos : 0 < |δ| := abs_pos.2 (div_ne_zero h0 hN.ne')
  have h1 := norm_ee_sub_one k δ hδ'
  have hne : ee (k + δ) ≠ 1 := by
    intro hc
    rw [hc, sub_self, norm_zero] at h1
    linarith
  have h2 : ‖∑ y ∈ Finset.range (2 ^ a), ee (y * (φ - x / 2 ^ a))‖ ≤ 2 / (4 * |δ|) := by
    rw [e, Finset.sum_congr rfl fun y _ => (ee_pow (k + δ) y).symm, geom_sum_eq hne, norm_div]
    refine div_le_div₀ (by norm_num) ?_ (by positivity) h1
    calc ‖ee (k + δ) ^ 2 ^ a - 1‖ ≤ ‖ee (k + δ) ^ 2 ^ a‖ + ‖(1 : ℂ)‖ := norm_sub_le _ _
      _ = 2 := by rw [norm_pow, norm_ee, one_pow, norm_one]; norm_num
  have h3 : ‖qpeAmp a φ x‖ ≤ 1 / (2 * |u|) := by
    unfold qpeAmp
    rw [norm_mul]
    have : ‖(1 / 2 ^ a : ℂ)‖ = 1 / 2 ^ a := by
      rw [norm_div, norm_one, norm_pow]; simp
    rw [this]
    refine (mul_le_mul_of_nonneg_left h2 (by positivity)).trans (le_of_eq ?_)
    rw [hδ, abs_div, abs_of_pos hN]
    have := abs_pos.2 h0
    field_simp; norm_num
  calc ‖qpeAmp a φ x‖ ^ 2 ≤ (1 / (2 * |u|)) ^ 2 := by gcongr
    _ = 1 / 4 * (1 / u ^ 2) := by rw [div_pow, mul_pow, sq_abs]; field_simp; norm_num

/-- the probability of a number further than `2^p / 2^a` from the phase -/
theorem qpe_tail (a p : ℕ) (hp : 1 ≤ p) (φ : ℝ) (S : Finset ℕ) (hS : ∀ x ∈ S, x < 2 ^ a ∧ ∀ k : ℤ, (2 : ℝ) ^ p ≤ |2 ^ a * φ - x - 2 ^ a * k|) :
    ∑ x ∈ S, ‖qpeAmp a φ x‖ ^ 2 ≤ 1 / (2 * (2 : ℝ) ^ p - 1) := by
  classical
  have hN : (0 : ℝ) < 2 ^ a := by positivity
  have hE : (2 : ℝ) ≤ 2 ^ p := by
    calc (2 : ℝ) = 2 ^ 1 := by norm_num
      _ ≤ 2 ^ p := pow_le_pow_right₀ (by norm_num) hp
  let k : ℕ → ℤ := fun x => round (φ - x / 2 ^ a)
  let u : ℕ → ℝ := fun x => 2 ^ a * φ - x - 2 ^ a * k x
  have hu : ∀ x : ℕ, |u x| ≤ 2 ^ a / 2 := by
    intro x
    have h := abs_sub_round (φ - x / 2 ^ a)
    have : u x = 2 ^ a * (φ - x / 2 ^ a - round (φ - (x : ℝ) / 2 ^ a)) := by
      show 2 ^ a * φ - x - 2 ^ a * ((round (φ - (x : ℝ) / 2 ^ a) : ℤ) : ℝ) = _
      field_simp
    rw [this, abs_mul, abs_of_pos hN]
    nlinarith
  have hbig : ∀ x ∈ S, (2 : ℝ) ^ p ≤ |u x| := fun x hx => (hS x hx).2 (k x)
  have hinj : ∀ x ∈ S, ∀ y ∈ S, u x = u y → x = y := by
    intro x hx y hy e
    have h1 := (hS x hx).1
    have h2 := (hS y hy).1
    have e1 : (x : ℝ) - y = 2 ^ a * (k y - k x) := by
      have : 2 ^ a * φ - x - 2 ^ a * (k x : ℝ) = 2 ^ a * φ - y - 2 ^ a * (k y : ℝ) := e
      linarith
    have e2 : (x : ℤ) - y = 2 ^ a * (k y - k x) := by exact_mod_cast e1
    have h1' : (x : ℤ) < 2 ^ a := by exact_mod_cast h1
    have h2' : (y : ℤ) < 2 ^ a := by exact_mod_cast h2
    have hx0 : (0 : ℤ) ≤ x := by positivity
    have hy0 : (0 : ℤ) ≤ y := by positivity
    have : k y - k x = 0 := by
      have hP : (0 : ℤ) < 2 ^ a := by positivity
      by_contra hc
      rcases lt_or_gt_of_ne hc with h | h
      · nlinarith
      · nlinarith
    rw [this, mul_zero] at e2
    omega
  have hle : ∀ x ∈ S, ‖qpeAmp a φ x‖ ^ 2 ≤ 1 / 4 * (1 / u x ^ 2) := by
    intro x hx
    refine qpeAmp_le a φ x (k x) (u x) ?_ ?_ (hu x)
    · show _ = 2 ^ a * (k x : ℝ) + (2 ^ a * φ - x - 2 ^ a * (k x : ℝ)); ring
    · intro e
      have := hbig x hx
      rw [e, abs_zero] at this
      linarith
  have hint : ∀ x y, ∃ d : ℤ, u x - u y = d := by
    intro x y
    refine ⟨(y : ℤ) - x - 2 ^ a * (k x - k y), ?_⟩
    show (2 ^ a * φ - x - 2 ^ a * (k x : ℝ)) - (2 ^ a * φ - y - 2 ^ a * (k y : ℝ)) = _
    push_cast; ring
  have side : ∀ (σ : ℝ), (σ = 1 ∨ σ = -1) → ∀ T : Finset ℕ, T ⊆ S → (∀ x ∈ T, 2 ^ p ≤ σ * u x) → ∑ x ∈ T, 1 / u x ^ 2 ≤ 1 / ((2 : ℝ) ^ p - 1 / 2) := by
    intro σ hσ T hT hT'
    refine tail_sum T (fun x => (⌊σ * u x - 2 ^ p⌋).toNat) ?_ _ (by linarith) _ ?_
    · intro x hx y hy e
      have hx1 := hT' x hx
      have hy1 := hT' y hy
      have e' : ⌊σ * u x - 2 ^ p⌋ = ⌊σ * u y - 2 ^ p⌋ := by
        have a1 : 0 ≤ ⌊σ * u x - (2 : ℝ) ^ p⌋ := Int.floor_nonneg.2 (by linarith)
        have a2 : 0 ≤ ⌊σ * u y - (2 : ℝ) ^ p⌋ := Int.floor_nonneg.2 (by linarith)
        have := e
        simp only at this
        omega
      obtain ⟨d, hd⟩ := hint x y
      obtain ⟨d', hd'⟩ : ∃ d' : ℤ, σ * u x - σ * u y = d' := by
        rcases hσ with rfl | rfl
        · exact ⟨d, by rw [← hd]; ring⟩
        · exact ⟨-d, by push_cast; rw [← hd]; ring⟩
      have e2 : σ * u x - 2 ^ p = (σ * u y - 2 ^ p) + d' := by linarith
      rw [e2, Int.floor_add_intCast] at e'
      have : d' = 0 := by omega
      rw [this] at hd'
      have e3 : u x = u y := by
        rcases hσ with rfl | rfl
        · push_cast at hd'; linarith
        · push_cast at hd'; linarith
      exact hinj x (hT hx) y (hT hy) e3
    · intro x hx
      have h1 := hT' x hx
      have h0 : 0 ≤ ⌊σ * u x - (2 : ℝ) ^ p⌋ := Int.floor_nonneg.2 (by linarith)
      have h2 : (((⌊σ * u x - 2 ^ p⌋).toNat : ℕ) : ℝ) ≤ σ * u x - 2 ^ p := by
        have : (((⌊σ * u x - (2 : ℝ) ^ p⌋).toNat : ℕ) : ℝ) = ((⌊σ * u x - (2 : ℝ) ^ p⌋ : ℤ) : ℝ) := by
          exact_mod_cast Int.toNat_of_nonneg h0
        rw [this]; exact Int.floor_le _
      have h3 : u x ^ 2 = (σ * u x) ^ 2 := by rcases hσ with rfl | rfl <;> ring
      rw [h3]
      have h4 : (0 : ℝ) ≤ (((⌊σ * u x - 2 ^ p⌋).toNat : ℕ) : ℝ) := Nat.cast_nonneg _
      exact div_le_div_of_nonneg_left (by norm_num) (by positivity) (pow_le_pow_left₀ (by positivity) (by linarith) 2)
  have hsplit : ∑ x ∈ S, 1 / u x ^ 2 ≤ 2 * (1 / ((2 : ℝ) ^ p - 1 / 2)) := by
    rw [← Finset.sum_filter_add_sum_filter_not S (fun x => 0 < u x)]
    have s1 := side 1 (.inl rfl) (S.filter fun x => 0 < u x) (Finset.filter_subset _ _) (by
      intro x hx
      obtain ⟨h1, h2⟩ := Finset.mem_filter.1 hx
      have := hbig x h1
      rw [abs_of_pos h2] at this
      linarith)
    have s2 := side (-1) (.inr rfl) (S.filter fun x => ¬ 0 < u x) (Finset.filter_subset _ _) (by
      intro x hx
      obtain ⟨h1, h2⟩ := Finset.mem_filter.1 hx
      have := hbig x h1
      rw [abs_of_nonpos (not_lt.1 h2)] at this
      linarith)
    linarith
  calc ∑ x ∈ S, ‖qpeAmp a φ x‖ ^ 2 ≤ ∑ x ∈ S, 1 / 4 * (1 / u x ^ 2) := Finset.sum_le_sum hle
    _ = 1 / 4 * ∑ x ∈ S, 1 / u x ^ 2 := by rw [Finset.mul_sum]
    _ ≤ 1 / 4 * (2 * (1 / ((2 : ℝ) ^ p - 1 / 2))) := by gcongr
    _ = 1 / (2 * (2 : ℝ) ^ p - 1) := by
      have : (2 : ℝ) ^ p - 1 / 2 ≠ 0 := by linarith
      have : 2 * (2 : ℝ) ^ p - 1 ≠ 0 := by linarith
      field_simp; ring

/-- enough ancillas -/
theorem ancilla_enough (ε : ℝ) (hε : 0 < ε) : ∃ p : ℕ, 1 ≤ p ∧ intLog2 (2 + 1 / ε) = p ∧ 1 / (2 * (2 : ℝ) ^ p - 1) ≤ ε := by
  have h1 : 0 < 1 / ε := by positivity
  have hl : 1 ≤ Real.logb 2 (2 + 1 / ε) := by
    rw [Real.le_logb_iff_rpow_le (by norm_num) (by linarith)]
    rw [Real.rpow_one]; linarith
  have hf : (1 : ℤ) ≤ ⌊Real.logb 2 (2 + 1 / ε)⌋ := Int.le_floor.2 (by exact_mod_cast hl)
  refine ⟨⌊Real.logb 2 (2 + 1 / ε)⌋.toNat, by omega, ?_, ?_⟩
  · unfold intLog2
    rw [if_pos (by linarith)]; omega
  · set p := ⌊Real.logb 2 (2 + 1 / ε)⌋.toNat with hp
    have hlt : Real.logb 2 (2 + 1 / ε) < (p : ℝ) + 1 := by
      have := Int.lt_floor_add_one (Real.logb 2 (2 + 1 / ε))
      have e : ((⌊Real.logb 2 (2 + 1 / ε)⌋ : ℤ) : ℝ) = (p : ℝ) := by
        have : (p : ℤ) = ⌊Real.logb 2 (2 + 1 / ε)⌋ := by omega
        exact_mod_cast this.symm
      rwa [e] at this
    rw [Real.logb_lt_iff_lt_rpow (by norm_num) (by linarith)] at hlt
    rw [show ((p : ℝ) + 1) = ((p + 1 : ℕ) : ℝ) by push_cast; ring, Real.rpow_natCast, pow_succ] at hlt
    have hpos : 0 < 2 * (2 : ℝ) ^ p - 1 := by linarith
    rw [div_le_iff₀ hpos]
    have : 1 / ε < 2 * (2 : ℝ) ^ p - 1 := by linarith
    rw [div_lt_iff₀ hε] at this
    linarith

end QF
