import Verif.Props.QiteDescent
import Verif.Props.TrotterConv
import Mathlib.Analysis.SpecialFunctions.Trigonometric.Bounds

/-!
Products of rotations `exp(-i θ σ)`: distance from the identity and from the first-order expansion.
-/
namespace QF

/-- `U` is within `Θ` of the identity and within `Θ² / 2` of `1 + L` -/
structure NearOne (n : ℕ) (Θ : ℝ) (L U : Op) : Prop where
  nonneg : 0 ≤ Θ
  contr : Bd n U 1
  first : Bd n (U - 1) Θ
  second : Bd n (U - 1 - L) (Θ ^ 2 / 2)

theorem NearOne.one (n : ℕ) : NearOne n 0 0 1 := by
  refine ⟨le_rfl, Bd.one n, fun ψ => ?_, fun ψ => ?_⟩ <;> simp [nrm_zero]

theorem NearOne.mul {n : ℕ} {Θ Θ' : ℝ} {L L' U V : Op} (h : NearOne n Θ L U) (h' : NearOne n Θ' L' V) : NearOne n (Θ + Θ') (L + L') (V * U) := by
  refine ⟨add_nonneg h.nonneg h'.nonneg, fun ψ => ?_, fun ψ => ?_, fun ψ => ?_⟩
  · have h1 := h'.contr (U ψ)
    have h2 := h.contr ψ
    rw [one_mul] at h1
    exact h1.trans h2
  · have e : (V * U - 1) ψ = (V - 1) (U ψ) + (U - 1) ψ := by
      simp only [LinearMap.sub_apply, Module.End.mul_apply, Module.End.one_apply]; abel
    rw [e]
    refine (nrm_add_le _ _ _).trans ?_
    have h1 := h'.first (U ψ)
    have h2 := h.contr ψ
    have h3 := h.first ψ
    have h4 := mul_le_mul_of_nonneg_left h2 h'.nonneg
    nlinarith
  · have e : (V * U - 1 - (L + L')) ψ = (U - 1 - L) ψ + (V - 1 - L') ψ + (V - 1) ((U - 1) ψ) := by
      simp only [LinearMap.sub_apply, LinearMap.add_apply, Module.End.mul_apply, Module.End.one_apply, map_sub]; abel
    rw [e]
    refine (nrm_add_le _ _ _).trans ?_
    have h0 := nrm_add_le n ((U - 1 - L) ψ) ((V - 1 - L') ψ)
    have h1 := h.second ψ
    have h2 := h'.second ψ
    have h3 := h'.first ((U - 1) ψ)
    have h4 := mul_le_mul_of_nonneg_left (h.first ψ) h'.nonneg
    nlinarith

theorem NearOne.pow {n : ℕ} {Θ : ℝ} {L U : Op} (h : NearOne n Θ L U) (k : ℕ) : NearOne n (k * Θ) ((k : ℂ) • L) (U ^ k) := by
  induction k with
  | zero => simpa using NearOne.one n
  | succ k ih =>
    have := h.mul ih
    have e : L + (k : ℂ) • L = ((k + 1 : ℕ) : ℂ) • L := by push_cast; module
    have e2 : Θ + k * Θ = ((k + 1 : ℕ) : ℝ) * Θ := by push_cast; ring
    rw [e, e2] at this
    simpa only [pow_succ] using this

/-- `(1 - cos θ)² + (θ - sin θ)² ≤ θ⁴ / 4` -/
theorem trig_second (θ : ℝ) : (1 - Real.cos θ) ^ 2 + (θ - Real.sin θ) ^ 2 ≤ (θ ^ 2 / 2) ^ 2 := by
  have key : ∀ t : ℝ, 0 ≤ t → 0 ≤ (t ^ 2 / 2) ^ 2 - ((1 - Real.cos t) ^ 2 + (t - Real.sin t) ^ 2) := by
    intro t ht
    have hd : ∀ s : ℝ, HasDerivAt (fun s : ℝ => (s ^ 2 / 2) ^ 2 - ((1 - Real.cos s) ^ 2 + (s - Real.sin s) ^ 2)) (s ^ 3 - 2 * s * (1 - Real.cos s)) s := by
      intro s
      have h1 := ((hasDerivAt_pow 2 s).div_const 2).pow 2
      have h2 := ((hasDerivAt_const s (1 : ℝ)).sub (Real.hasDerivAt_cos s)).pow 2
      have h3 := ((hasDerivAt_id s).sub (Real.hasDerivAt_sin s)).pow 2
      refine (h1.sub (h2.add h3)).congr_deriv ?_
      have := Real.sin_sq_add_cos_sq s
      simp
      ring
    have hm : MonotoneOn (fun s : ℝ => (s ^ 2 / 2) ^ 2 - ((1 - Real.cos s) ^ 2 + (s - Real.sin s) ^ 2)) (Set.Ici 0) := by
      refine monotoneOn_of_deriv_nonneg (convex_Ici 0) (fun s _ => (hd s).continuousAt.continuousWithinAt) (fun s _ => (hd s).differentiableAt.differentiableWithinAt) ?_
      intro s hs
      rw [interior_Ici] at hs
      rw [(hd s).deriv]
      have hs : 0 < s := hs
      have := Real.one_sub_sq_div_two_le_cos (x := s)
      nlinarith [mul_nonneg hs.le (sub_nonneg.2 this)]
    have := hm (Set.mem_Ici.2 le_rfl) (Set.mem_Ici.2 ht) ht
    simpa using this
  have := key |θ| (abs_nonneg θ)
  rw [sq_abs, Real.cos_abs] at this
  rcases abs_choice θ with e | e <;> rw [e] at this
  · linarith
  · rw [Real.sin_neg] at this
    nlinarith

/-- the norm of `(a + i b σ) ψ` for real `a`, `b`: the two parts are orthogonal in the real sense -/
theorem nrm_rot {n : ℕ} {c : Circuit} (hc : c.PauliString n) (a b : ℝ) (ψ : St) :
    nrm n ((((a : ℝ) : ℂ)) • ψ + (Complex.I * b) • c.op ψ) ^ 2 = (a ^ 2 + b ^ 2) * nrm n ψ ^ 2 := by
  have hn : nrm n (c.op ψ) = nrm n ψ := nrm_circuit hc.fits (fun g hg => C02_unitary (.make (hc.gates g hg).make)) ψ
  have hr : (inner n ψ (c.op ψ)).im = 0 := by
    have h1 := QiteAlg.pauli_herm hc ψ ψ
    have h2 : inner n (c.op ψ) ψ = (starRingEnd ℂ) (inner n ψ (c.op ψ)) := by
      unfold inner; rw [map_sum]; refine Finset.sum_congr rfl fun I _ => ?_; simp [mul_comm]
    rw [h2] at h1
    have := congrArg Complex.im h1
    rw [Complex.conj_im] at this
    linarith
  have h3 : (inner n (((a : ℝ) : ℂ) • ψ + (Complex.I * b) • c.op ψ) (((a : ℝ) : ℂ) • ψ + (Complex.I * b) • c.op ψ)) =
      (a ^ 2 : ℂ) * inner n ψ ψ + (b ^ 2 : ℂ) * inner n (c.op ψ) (c.op ψ) + (Complex.I * a * b) * (inner n ψ (c.op ψ) - inner n (c.op ψ) ψ) := by
    unfold inner
    rw [← Finset.sum_sub_distrib, Finset.mul_sum, Finset.mul_sum, Finset.mul_sum, ← Finset.sum_add_distrib, ← Finset.sum_add_distrib]
    refine Finset.sum_congr rfl fun I _ => ?_
    simp only [Pi.add_apply, Pi.smul_apply, smul_eq_mul, map_add, map_mul, Complex.conj_I, Complex.conj_ofReal]
    ring_nf
    rw [Complex.I_sq]; ring
  rw [nrm_sq_re, h3, QiteAlg.pauli_herm hc ψ ψ, sub_self, mul_zero, add_zero]
  have e1 : inner n (c.op ψ) (c.op ψ) = ((nrm n ψ ^ 2 : ℝ) : ℂ) := by rw [← nrm_sq_inner, hn]
  rw [e1, ← nrm_sq_inner]
  have : (a ^ 2 : ℂ) * ((nrm n ψ ^ 2 : ℝ) : ℂ) + (b ^ 2 : ℂ) * ((nrm n ψ ^ 2 : ℝ) : ℂ) = (((a ^ 2 + b ^ 2) * nrm n ψ ^ 2 : ℝ) : ℂ) := by push_cast; ring
  rw [this, Complex.ofReal_re]

theorem nrm_nonneg' (n : ℕ) (ψ : St) : 0 ≤ nrm n ψ := Real.sqrt_nonneg _

/-- one rotation -/
theorem NearOne.rot {n : ℕ} {c : Circuit} (hc : c.PauliString n) (θ : ℝ) {U : Op} (hU : IsExp ((-Complex.I * θ) • c.op) U) :
    NearOne n |θ| ((-Complex.I * θ) • c.op) U := by
  have hi : Circuit.op c * Circuit.op c = 1 := ipauli_sq ⟨fun g hg => ⟨.inr (hc.gates g hg).letter, (hc.gates g hg).make⟩, hc.distinct⟩
  have e := hU.unique (isExp_invol hi _)
  have e1 : Complex.cosh (-Complex.I * θ) = ((Real.cos θ : ℝ) : ℂ) := by
    rw [show -Complex.I * (θ : ℂ) = ((-θ : ℝ) : ℂ) * Complex.I by push_cast; ring, Complex.cosh_mul_I, ← Complex.ofReal_cos, Real.cos_neg]
  have e2 : Complex.sinh (-Complex.I * θ) = Complex.I * ((-Real.sin θ : ℝ) : ℂ) := by
    rw [show -Complex.I * (θ : ℂ) = ((-θ : ℝ) : ℂ) * Complex.I by push_cast; ring, Complex.sinh_mul_I, ← Complex.ofReal_sin, Real.sin_neg]; ring
  rw [e1, e2] at e
  have hcs := Real.sin_sq_add_cos_sq θ
  refine ⟨abs_nonneg θ, fun ψ => ?_, fun ψ => ?_, fun ψ => ?_⟩
  · have : U ψ = ((Real.cos θ : ℝ) : ℂ) • ψ + (Complex.I * ((-Real.sin θ : ℝ) : ℂ)) • c.op ψ := by rw [e]; rfl
    rw [this]
    refine abs_le_of_sq_le_sq' ?_ (by have := nrm_nonneg' n ψ; linarith) |>.2
    rw [nrm_rot hc, one_mul]
    nlinarith [sq_nonneg (nrm n ψ)]
  · have : (U - 1) ψ = ((Real.cos θ - 1 : ℝ) : ℂ) • ψ + (Complex.I * ((-Real.sin θ : ℝ) : ℂ)) • c.op ψ := by
      rw [e]; simp only [LinearMap.sub_apply, LinearMap.add_apply, LinearMap.smul_apply, Module.End.one_apply]; push_cast; module
    rw [this]
    refine abs_le_of_sq_le_sq' ?_ (mul_nonneg (abs_nonneg θ) (nrm_nonneg' n ψ)) |>.2
    rw [nrm_rot hc, mul_pow, sq_abs]
    refine mul_le_mul_of_nonneg_right ?_ (sq_nonneg _)
    have := Real.one_sub_sq_div_two_le_cos (x := θ)
    nlinarith
  · have : (U - 1 - (-Complex.I * θ) • c.op) ψ = ((Real.cos θ - 1 : ℝ) : ℂ) • ψ + (Complex.I * ((θ - Real.sin θ : ℝ) : ℂ)) • c.op ψ := by
      rw [e]; simp only [LinearMap.sub_apply, LinearMap.add_apply, LinearMap.smul_apply, Module.End.one_apply]; push_cast; module
    rw [this]
    refine abs_le_of_sq_le_sq' ?_ (mul_nonneg (by positivity) (nrm_nonneg' n ψ)) |>.2
    rw [nrm_rot hc, mul_pow, sq_abs]
    refine mul_le_mul_of_nonneg_right ?_ (sq_nonneg _)
    have := trig_second θ
    nlinarith

/-- the sum of the absolute coefficients -/
noncomputable def coeffSum (H : QubitOperator) : ℝ := (H.map fun t => ‖t.1‖).sum

theorem coeffSum_nonneg (H : QubitOperator) : 0 ≤ coeffSum H := by
  unfold coeffSum
  refine List.sum_nonneg fun a ha => ?_
  obtain ⟨t, -, rfl⟩ := List.mem_map.1 ha
  exact norm_nonneg _

theorem coeffSum_bd {n : ℕ} {H : QubitOperator} (h : ∀ t ∈ H, t.2.PauliString n) : Bd n H.op (coeffSum H) := by
  intro ψ
  induction H with
  | nil => simp [coeffSum, QubitOperator.op, nrm_zero]
  | cons t H ih =>
    have h1 := ih fun s hs => h s (by simp [hs])
    have hc := h t (by simp)
    have hn : nrm n (Circuit.op t.2 ψ) = nrm n ψ := nrm_circuit hc.fits (fun g hg => C02_unitary (.make (hc.gates g hg).make)) ψ
    have e : QubitOperator.op (t :: H) = t.1 • t.2.op + QubitOperator.op H := by simp [QubitOperator.op]
    rw [e, LinearMap.add_apply, LinearMap.smul_apply]
    refine (nrm_add_le _ _ _).trans ?_
    rw [nrm_smul, hn]
    unfold coeffSum at *
    rw [List.map_cons, List.sum_cons, add_mul]
    linarith

/-- the Trotter product of an operator with real coefficients -/
theorem NearOne.trotter {n : ℕ} {H : QubitOperator} (hH : ∀ t ∈ H, t.1.im = 0 ∧ t.2.PauliString n) {N : ℤ} (hN : 1 ≤ N) (τ : ℝ) {Us : List Op}
    (hU : List.Forall₂ (fun t U => IsExp ((-Complex.I * τ * t.1 / (N : ℂ)) • t.2.op) U) H Us) :
    NearOne n (|τ| * coeffSum H) ((-Complex.I * τ) • H.op) (applyInOrder Us ^ N.toNat) := by
  have hNr : (1 : ℝ) ≤ N := by exact_mod_cast hN
  have hN0 : (N : ℂ) ≠ 0 := by exact_mod_cast (by omega : N ≠ 0)
  have hNt : ((N.toNat : ℕ) : ℂ) = N := by
    have : ((N.toNat : ℕ) : ℤ) = N := Int.toNat_of_nonneg (by omega)
    exact_mod_cast this
  have hNt' : ((N.toNat : ℕ) : ℝ) = N := by
    have : ((N.toNat : ℕ) : ℤ) = N := Int.toNat_of_nonneg (by omega)
    exact_mod_cast this
  have one : NearOne n (|τ| * coeffSum H / N) ((-Complex.I * τ / N) • H.op) (applyInOrder Us) := by
    induction hU with
    | nil => simpa [coeffSum, QubitOperator.op, applyInOrder] using NearOne.one n
    | @cons t U H Us h _ ih =>
      have h1 := ih fun s hs => hH s (by simp [hs])
      obtain ⟨hr, hc⟩ := hH t (by simp)
      have ht : t.1 = ((t.1.re : ℝ) : ℂ) := Complex.ext (by simp) (by simp [hr])
      have hth : -Complex.I * (τ : ℂ) * t.1 / (N : ℂ) = -Complex.I * ((τ * t.1.re / N : ℝ) : ℂ) := by
        rw [ht]; push_cast; simp only [Complex.ofReal_re]; ring
      rw [hth] at h
      have h2 := (NearOne.rot hc _ h).mul h1
      have e1 : |τ * t.1.re / N| + |τ| * coeffSum H / N = |τ| * coeffSum (t :: H) / N := by
        unfold coeffSum
        rw [List.map_cons, List.sum_cons, abs_div, abs_mul, abs_of_pos (by linarith : (0 : ℝ) < N)]
        have : ‖t.1‖ = |t.1.re| := by rw [ht, Complex.norm_real]; simp
        rw [this]; ring
      have e2 : (-Complex.I * ((τ * t.1.re / N : ℝ) : ℂ)) • Circuit.op t.2 + (-Complex.I * τ / N) • QubitOperator.op H = (-Complex.I * τ / N) • QubitOperator.op (t :: H) := by
        have e : QubitOperator.op (t :: H) = t.1 • t.2.op + QubitOperator.op H := by simp [QubitOperator.op]
        rw [e, ← hth]; module
      rw [e1, e2] at h2
      exact h2
  have h := one.pow N.toNat
  have hr0 : (N : ℝ) ≠ 0 := by linarith
  rw [hNt, hNt', smul_smul, mul_div_cancel₀ _ hr0, mul_div_cancel₀ _ hN0] at h
  exact h

end QF
