import Verif.Lemmas.Skew
import Verif.Lemmas.Expo
import Verif.Spec.Inner
import Mathlib.Analysis.SpecialFunctions.Trigonometric.Series
import Mathlib.Analysis.SpecialFunctions.Trigonometric.Deriv

/-!
The exponential of a real antisymmetric operator that couples determinants in pairs.
-/
namespace QF

/-- `cos(s k_I) ψ_I + sin(s k_I) ψ_{I ⊕ m}` -/
noncomputable def skewExp (m : ℕ) (k : ℕ → ℝ) (s : ℝ) : Op where
  toFun ψ I := (Real.cos (s * k I) : ℂ) * ψ I + (Real.sin (s * k I) : ℂ) * ψ (I ^^^ m)
  map_add' ψ φ := by funext I; simp only [Pi.add_apply]; ring
  map_smul' z ψ := by funext I; simp only [Pi.smul_apply, smul_eq_mul, RingHom.id_apply]; ring

theorem skewExp_apply (m : ℕ) (k : ℕ → ℝ) (s : ℝ) (ψ : St) (I : ℕ) :
    skewExp m k s ψ I = (Real.cos (s * k I) : ℂ) * ψ I + (Real.sin (s * k I) : ℂ) * ψ (I ^^^ m) := rfl

theorem xor_xor_self (I m : ℕ) : I ^^^ m ^^^ m = I := by rw [Nat.xor_assoc, Nat.xor_self, Nat.xor_zero]

theorem skew_pow {m : ℕ} {k : ℕ → ℝ} {K : Op} (hK : ∀ ψ I, K ψ I = k I * ψ (I ^^^ m)) (ha : ∀ I, k (I ^^^ m) = -k I) (s : ℝ) (ψ : St) (I : ℕ) (j : ℕ) :
    (((s : ℂ) • K) ^ (2 * j)) ψ I = (-1) ^ j * (s * k I : ℂ) ^ (2 * j) * ψ I ∧
      (((s : ℂ) • K) ^ (2 * j + 1)) ψ I = (-1) ^ j * (s * k I : ℂ) ^ (2 * j + 1) * ψ (I ^^^ m) := by
  have h1 : ∀ (φ : St) J, ((s : ℂ) • K) φ J = (s * k J : ℂ) * φ (J ^^^ m) := by
    intro φ J
    rw [LinearMap.smul_apply, Pi.smul_apply, smul_eq_mul, hK]; ring
  induction j generalizing I with
  | zero => refine ⟨by simp, by rw [mul_zero, zero_add, pow_one, h1]; simp⟩
  | succ j ih =>
    have step : (((s : ℂ) • K) ^ (2 * (j + 1))) ψ I = (-1) ^ (j + 1) * (s * k I : ℂ) ^ (2 * (j + 1)) * ψ I := by
      rw [show 2 * (j + 1) = (2 * j + 1) + 1 by ring, pow_succ', Module.End.mul_apply, h1, (ih (I ^^^ m)).2, xor_xor_self, ha]
      push_cast
      rw [show (s : ℂ) * -(k I : ℂ) = -(s * k I) by ring, Odd.neg_pow ⟨j, rfl⟩]
      ring
    refine ⟨step, ?_⟩
    have step2 : (((s : ℂ) • K) ^ (2 * (j + 1))) ψ (I ^^^ m) = (-1) ^ (j + 1) * (s * k I : ℂ) ^ (2 * (j + 1)) * ψ (I ^^^ m) := by
      rw [show 2 * (j + 1) = (2 * j + 1) + 1 by ring, pow_succ', Module.End.mul_apply, h1, xor_xor_self, (ih I).2, ha]
      push_cast; ring
    rw [pow_succ', Module.End.mul_apply, h1, step2]
    push_cast; ring

theorem isExp_skew {m : ℕ} {k : ℕ → ℝ} {K : Op} (hK : ∀ ψ I, K ψ I = k I * ψ (I ^^^ m)) (ha : ∀ I, k (I ^^^ m) = -k I) (s : ℝ) :
    IsExp ((s : ℂ) • K) (skewExp m k s) := by
  intro ψ I
  rw [skewExp_apply]
  have hc := (Complex.hasSum_cos ((s * k I : ℝ) : ℂ)).mul_right (ψ I)
  have hs := (Complex.hasSum_sin ((s * k I : ℝ) : ℂ)).mul_right (ψ (I ^^^ m))
  rw [← Complex.ofReal_cos] at hc
  rw [← Complex.ofReal_sin] at hs
  refine HasSum.even_add_odd ?_ ?_
  · have e : (fun j : ℕ => (((2 * j).factorial : ℂ))⁻¹ * (((s : ℂ) • K) ^ (2 * j)) ψ I) =
        fun j : ℕ => (-1) ^ j * ((s * k I : ℝ) : ℂ) ^ (2 * j) / ((2 * j).factorial : ℂ) * ψ I := by
      funext j; rw [(skew_pow hK ha s ψ I j).1]; push_cast; ring
    rw [e]; exact hc
  · have e : (fun j : ℕ => (((2 * j + 1).factorial : ℂ))⁻¹ * (((s : ℂ) • K) ^ (2 * j + 1)) ψ I) =
        fun j : ℕ => (-1) ^ j * ((s * k I : ℝ) : ℂ) ^ (2 * j + 1) / ((2 * j + 1).factorial : ℂ) * ψ (I ^^^ m) := by
      funext j; rw [(skew_pow hK ha s ψ I j).2]; push_cast; ring
    rw [e]; exact hs

/-- the register is closed under the flip -/
theorem inner_flip {n m : ℕ} (hm : m < 2 ^ n) (f : ℕ → ℂ) : ∑ I ∈ Finset.range (2 ^ n), f (I ^^^ m) = ∑ I ∈ Finset.range (2 ^ n), f I := by
  refine Finset.sum_nbij' (· ^^^ m) (· ^^^ m) ?_ ?_ ?_ ?_ ?_
  · intro I hI; simp only [Finset.mem_range] at hI ⊢; exact Nat.xor_lt_two_pow hI hm
  · intro I hI; simp only [Finset.mem_range] at hI ⊢; exact Nat.xor_lt_two_pow hI hm
  · intro I _; exact xor_xor_self I m
  · intro I _; exact xor_xor_self I m
  · intro I _; rfl

theorem skew_anti {n m : ℕ} (hm : m < 2 ^ n) {K : Op} (h : RealSkew m K) (φ ψ : St) : inner n φ (K ψ) = -inner n (K φ) ψ := by
  obtain ⟨k, hK, ha⟩ := h
  unfold inner
  rw [← inner_flip hm, ← Finset.sum_neg_distrib]
  refine Finset.sum_congr rfl fun I _ => ?_
  rw [hK, hK, xor_xor_self, ha, map_mul, Complex.conj_ofReal]
  push_cast; ring

/-- everything needed about the one-parameter group generated by a real antisymmetric pairing operator -/
structure Flow (n : ℕ) (K : Op) (V : ℝ → Op) : Prop where
  anti : ∀ φ ψ, inner n φ (K ψ) = -inner n (K φ) ψ
  inv : ∀ s, V (-s) * V s = 1
  unitary : ∀ s φ ψ, inner n (V s φ) (V s ψ) = inner n φ ψ
  reg : ∀ s ψ, OnReg n ψ → OnReg n (V s ψ)
  regK : ∀ ψ, OnReg n ψ → OnReg n (K ψ)
  deriv : ∀ s ψ I, HasDerivAt (fun x => V x ψ I) (K (V s ψ) I) s

theorem xor_ge {n I m : ℕ} (hI : 2 ^ n ≤ I) (hm : m < 2 ^ n) : 2 ^ n ≤ I ^^^ m := by
  by_contra h
  have := Nat.xor_lt_two_pow (Nat.lt_of_not_le h) hm
  rw [xor_xor_self] at this
  omega

theorem skew_flow {n m : ℕ} (hm : m < 2 ^ n) {K : Op} (h : RealSkew m K) {V : ℝ → Op} (hV : ∀ s : ℝ, IsExp ((s : ℂ) • K) (V s)) : Flow n K V := by
  have hanti := skew_anti hm h
  obtain ⟨k, hK, ha⟩ := h
  have hVe : ∀ s, V s = skewExp m k s := fun s => (hV s).unique (isExp_skew hK ha s)
  have hcs : ∀ x : ℝ, (Real.cos x : ℂ) * Real.cos x + (Real.sin x : ℂ) * Real.sin x = 1 := by
    intro x; norm_cast; nlinarith [Real.sin_sq_add_cos_sq x]
  refine ⟨hanti, ?_, ?_, ?_, ?_, ?_⟩
  · intro s
    refine Op.ext' fun ψ I => ?_
    rw [hVe, hVe, Module.End.mul_apply, skewExp_apply, skewExp_apply, skewExp_apply, xor_xor_self, ha, Module.End.one_apply,
      show -s * k I = -(s * k I) by ring, show s * -k I = -(s * k I) by ring]
    simp only [Real.cos_neg, Real.sin_neg]
    push_cast
    have := hcs (s * k I)
    push_cast at this
    linear_combination (ψ I) * this
  · intro s φ ψ
    rw [hVe]
    have e1 : inner n (skewExp m k s φ) (skewExp m k s ψ) =
        ∑ I ∈ Finset.range (2 ^ n), ((Real.cos (s * k I) : ℂ) * Real.cos (s * k I) * ((starRingEnd ℂ) (φ I) * ψ I)
          + (Real.cos (s * k I) : ℂ) * Real.sin (s * k I) * ((starRingEnd ℂ) (φ I) * ψ (I ^^^ m)))
        + ∑ I ∈ Finset.range (2 ^ n), ((Real.sin (s * k I) : ℂ) * Real.sin (s * k I) * ((starRingEnd ℂ) (φ (I ^^^ m)) * ψ (I ^^^ m))
          + (Real.cos (s * k I) : ℂ) * Real.sin (s * k I) * ((starRingEnd ℂ) (φ (I ^^^ m)) * ψ I)) := by
      unfold inner
      rw [← Finset.sum_add_distrib]
      refine Finset.sum_congr rfl fun I _ => ?_
      simp only [skewExp_apply, map_add, map_mul, Complex.conj_ofReal]
      ring
    rw [e1, ← inner_flip hm (fun I => (Real.sin (s * k I) : ℂ) * Real.sin (s * k I) * ((starRingEnd ℂ) (φ (I ^^^ m)) * ψ (I ^^^ m))
          + (Real.cos (s * k I) : ℂ) * Real.sin (s * k I) * ((starRingEnd ℂ) (φ (I ^^^ m)) * ψ I)), ← Finset.sum_add_distrib]
    unfold inner
    refine Finset.sum_congr rfl fun I _ => ?_
    simp only [xor_xor_self, ha, mul_neg, Real.sin_neg, Real.cos_neg]
    push_cast
    have := hcs (s * k I)
    push_cast at this
    linear_combination ((starRingEnd ℂ) (φ I) * ψ I) * this
  · intro s ψ hψ I hI
    rw [hVe, skewExp_apply, hψ I hI, hψ _ (xor_ge hI hm)]; simp
  · intro ψ hψ I hI
    rw [hK, hψ _ (xor_ge hI hm)]; simp
  · intro s ψ I
    have e : (fun x => V x ψ I) = fun x : ℝ => ((Real.cos (x * k I) : ℝ) : ℂ) * ψ I + ((Real.sin (x * k I) : ℝ) : ℂ) * ψ (I ^^^ m) := by
      funext x; rw [hVe, skewExp_apply]
    rw [e]
    have hl : HasDerivAt (fun x : ℝ => x * k I) (k I) s := by simpa using (hasDerivAt_id s).mul_const (k I)
    have hc := ((Real.hasDerivAt_cos (s * k I)).comp s hl).ofReal_comp.mul_const (ψ I)
    have hs := ((Real.hasDerivAt_sin (s * k I)).comp s hl).ofReal_comp.mul_const (ψ (I ^^^ m))
    convert! hc.add hs using 1
    rw [hK, hVe, skewExp_apply, xor_xor_self, ha, show s * -k I = -(s * k I) by ring]
    simp only [Real.cos_neg, Real.sin_neg]
    push_cast; ring

/-- the mask of ladder operators on a register stays on the register -/
theorem lmask_lt {n : ℕ} {l : List (Bool × ℕ)} (h : ∀ x ∈ l, x.2 < n) : lmask l < 2 ^ n := by
  induction l with
  | nil => simp [lmask]
  | cons x l ih =>
    rw [lmask, List.foldr_cons]
    exact Nat.xor_lt_two_pow (Nat.pow_lt_pow_right (by norm_num) (h x (by simp))) (ih fun y hy => h y (by simp [hy]))

theorem kappa_flow {n : ℕ} {q : Bool} {c a : List ℕ} (hc : ∀ p ∈ c, p < n) (ha : ∀ p ∈ a, p < n) {V : ℝ → Op}
    (hV : ∀ s : ℝ, IsExp ((s : ℂ) • kappa q c a) (V s)) : Flow n (kappa q c a) V := by
  refine skew_flow (lmask_lt ?_) (kappa_skew q c a) hV
  intro x hx
  rcases List.mem_append.1 hx with hx | hx <;> obtain ⟨p, hp, rfl⟩ := List.mem_map.1 hx
  · exact hc p hp
  · exact ha p hp

end QF
