import Verif.Props.SpqeLoop
import Verif.Props.QiteDescent
import Verif.Props.QSD

/-!
C88: what the estimates of SPQE estimate.
-/
namespace QF

open SQOperator (DescSort)
open QubitOperator (SortOracle)
open SQOpPool Filter Topology

namespace Spqe

/-- C88: the estimates that select the operators tend, as `dt → 0`, to the squared moduli of the residuals `⟨I|U† H U|Φ⟩`, for every determinant other than the reference, every
ansatz circuit and every Trotter number. -/
theorem C88_estimate (A : PqeAlg) (O : Opts) (k R : ℕ) (irr : List ℕ) (hI : Input A O k R irr) (hu : A.uprep = A.refprep) (U : Circuit) (hF : U.Fits A.nqb)
    (hU : ∀ g ∈ U, ApiGate g ∧ ExactGate g) (I : ℕ) (hIlt : I < 2 ^ A.nqb) (hne : I ≠ R) (K : ℝ → Circuit) (ph : ℝ → ℂ)
    (hK : ∀ dt : ℝ, trotterize A.ham ((dt : ℂ) * Complex.I) A.trotterNumber = .ok (K dt, ph dt)) :
    Tendsto (fun dt => estimate A.nqb (K dt).op U.op A.reference dt I) (𝓝[≠] 0) (𝓝 (‖detResidual A.nqb A.ham.op U.op A.reference I‖ ^ 2)) := by
  have hs := start_inv A k R (targets k R irr 0 O.rank)
  have href : A.reference = Pi.single R 1 := (hs.sound hI).reference (hs.ready hI) hI.fresh hu
  have hRlt : R < 2 ^ A.nqb := by rw [hI.size]; exact (hs.sound hI).refLt
  -- the state of the ansatz
  obtain ⟨q1, _, w1, n1, p1⟩ := applyCircuit_exact (q := A.initialComputer) A.uprep hI.ready.wf (by rw [hI.ready.size]; exact hI.ready.prep.1) hI.ready.prep.2
  obtain ⟨q2, _, w2, n2, p2⟩ := applyCircuit_exact (q := q1) U w1 (by rw [n1, hI.ready.size]; exact hF) (fun g hg => (hU g hg).2)
  have hψ : OnReg A.nqb (U.op A.reference) := by
    have := psi_onReg w2
    rw [p2, p1, n2, n1, hI.ready.size] at this
    exact this
  have hun : ∀ a b, inner A.nqb (U.op a) (U.op b) = inner A.nqb a b := inner_circuit hF fun g hg => C02_unitary (hU g hg).1
  have hψ1 : inner A.nqb (U.op A.reference) (U.op A.reference) = 1 := by
    rw [hun, href]
    unfold inner
    rw [Finset.sum_eq_single R]
    · simp
    · intro J _ hJ; simp [Pi.single_eq_of_ne hJ]
    · intro h; exact absurd (Finset.mem_range.2 hRlt) h
  have horth : inner A.nqb (U.op (Pi.single I 1)) (U.op A.reference) = 0 := by
    rw [hun, href]
    unfold inner
    apply Finset.sum_eq_zero
    intro J _
    by_cases hJ : J = I
    · subst hJ; simp [Pi.single_eq_of_ne hne]
    · simp [Pi.single_eq_of_ne hJ]
  -- the propagated states
  have hprop : ∀ dt : ℝ, TrotterState A.ham A.trotterNumber (-dt) (U.op A.reference) (ph dt • (K dt).op (U.op A.reference)) ∧ ‖ph dt‖ = 1 := by
    intro dt
    obtain ⟨C, p, e1, e2, e3, e4⟩ := propagator (O := { O with dt := dt }) (A := A) (k := k) (R := R) (irr := irr)
      ⟨hI.size, hI.pos, hI.small, hI.occ, hI.len, hI.isRef, hI.prep, hI.irreps, hI.rank, hI.low, hI.ready, hI.fresh, hI.standard, hI.steps, hI.ham⟩
    have e1 : trotterize A.ham ((dt : ℂ) * Complex.I) A.trotterNumber = .ok (C, p) := e1
    rw [hK dt] at e1
    obtain ⟨rfl, rfl⟩ := Prod.mk.inj (Except.ok.inj e1)
    refine ⟨e4 _, ?_⟩
    have := QiteAlg.trotterState_norm hI.ham (e4 (U.op A.reference))
    rw [hψ1, inner_smul_left', inner_smul_right, inner_circuit e2 (fun g hg => C02_unitary (e3 g hg).1), hψ1, mul_one, mul_comm, Complex.mul_conj] at this
    have h2 : Complex.normSq (ph dt) = 1 := by exact_mod_cast this
    rw [Complex.normSq_eq_norm_sq] at h2
    exact (pow_eq_one_iff_of_nonneg (norm_nonneg _) two_ne_zero).1 h2
  let χ : ℝ → St := fun τ => ph (-τ) • (K (-τ)).op (U.op A.reference)
  have hχ : ∀ τ, TrotterState A.ham A.trotterNumber τ (U.op A.reference) (χ τ) := by
    intro τ
    have := (hprop (-τ)).1
    rw [neg_neg] at this
    exact this
  obtain ⟨_, _, r3⟩ := QiteAlg.trotter_deriv (fun t ht => (hI.ham t ht).2) hI.steps hψ hχ
  let f : ℝ → ℂ := fun τ => inner A.nqb (U.op (Pi.single I 1)) (χ τ)
  have hf : HasDerivAt f (inner A.nqb (U.op (Pi.single I 1)) (-Complex.I • A.ham.op (U.op A.reference))) 0 := by
    unfold inner
    exact HasDerivAt.fun_sum fun J _ => (r3 J).const_mul _
  have hf0 : f 0 = 0 := by
    show inner A.nqb _ (χ 0) = 0
    rw [trotterState_zero (hχ 0), horth]
  have hlim := (hasDerivAt_iff_tendsto_slope.1 hf)
  have hneg : Tendsto (fun dt : ℝ => -dt) (𝓝[≠] 0) (𝓝[≠] 0) := by
    apply tendsto_nhdsWithin_of_tendsto_nhds_of_eventually_within
    · have : Tendsto (fun dt : ℝ => -dt) (𝓝 0) (𝓝 (-0)) := continuous_neg.tendsto 0
      rw [neg_zero] at this
      exact this.mono_left nhdsWithin_le_nhds
    · filter_upwards [self_mem_nhdsWithin] with dt hdt
      simpa using hdt
  have h2 := ((hlim.comp hneg).norm.pow 2)
  have hval : ‖inner A.nqb (U.op (Pi.single I 1)) (-Complex.I • A.ham.op (U.op A.reference))‖ = ‖detResidual A.nqb A.ham.op U.op A.reference I‖ := by
    rw [inner_smul_right, norm_mul, norm_neg, Complex.norm_I, one_mul]; rfl
  rw [hval] at h2
  refine h2.congr' ?_
  filter_upwards [self_mem_nhdsWithin] with dt hdt
  have hχd : f (-dt) = ph dt * detResidual A.nqb (K dt).op U.op A.reference I := by
    show inner A.nqb _ (ph (- -dt) • _) = _
    rw [inner_smul_right, neg_neg]; rfl
  simp only [Function.comp, slope_def_module, sub_zero, hf0, hχd, norm_smul, norm_mul, (hprop dt).2, one_mul, norm_inv, norm_neg]
  unfold estimate
  rw [mul_pow, inv_pow, Real.norm_eq_abs, sq_abs, ← sq, div_eq_inv_mul]

end Spqe
end QF
