import Verif.Props.QiteDescent
import Verif.Props.QitePool
import Verif.Props.QLanczos
import Mathlib.Analysis.InnerProductSpace.Projection.Minimal
import Mathlib.Analysis.InnerProductSpace.PiL2

/-!
C82-C84: the hypotheses are met by concrete cases.
-/
namespace QF
namespace QiteAlg
/-- the contract is satisfiable: a least-squares solution always exists -/
theorem exists_lstsq : ∃ ls, IsLstsq ls := by
  classical
  have key : ∀ (n : ℕ) (S : RMat) (b : List ℝ), ∃ x : List ℝ, b.length = n → x.length = n ∧ ∀ y : ℕ → ℝ,
      ∑ i ∈ Finset.range n, (∑ j ∈ Finset.range n, S i j * x.getD j 0 - b.getD i 0) ^ 2 ≤
        ∑ i ∈ Finset.range n, (∑ j ∈ Finset.range n, S i j * y j - b.getD i 0) ^ 2 := by
    intro n S b
    let M : Matrix (Fin n) (Fin n) ℝ := fun i j => S i j
    let T : (Fin n → ℝ) →ₗ[ℝ] EuclideanSpace ℝ (Fin n) := (WithLp.linearEquiv 2 ℝ (Fin n → ℝ)).symm.toLinearMap ∘ₗ M.mulVecLin
    let u : EuclideanSpace ℝ (Fin n) := WithLp.toLp 2 fun i => b.getD i 0
    obtain ⟨v, hv, hmin⟩ := Submodule.exists_norm_eq_iInf_of_complete_subspace (LinearMap.range T) (Submodule.complete_of_finiteDimensional _) u
    obtain ⟨x, rfl⟩ := hv
    have sq : ∀ y : Fin n → ℝ, ‖u - T y‖ ^ 2 = ∑ i : Fin n, (∑ j : Fin n, S i j * y j - b.getD i 0) ^ 2 := by
      intro y
      rw [EuclideanSpace.norm_sq_eq]
      refine Finset.sum_congr rfl fun i _ => ?_
      have : (u - T y) i = b.getD i 0 - ∑ j : Fin n, S i j * y j := by
        simp [u, T, M]
        rfl
      rw [this, Real.norm_eq_abs, sq_abs]; ring
    have le : ∀ y : Fin n → ℝ, ‖u - T x‖ ≤ ‖u - T y‖ := by
      intro y
      rw [hmin]
      exact ciInf_le (f := fun w : LinearMap.range T => ‖u - w‖) ⟨0, by rintro _ ⟨w, rfl⟩; exact norm_nonneg _⟩ ⟨T y, LinearMap.mem_range_self T y⟩
    refine ⟨List.ofFn x, fun _ => ⟨by simp, fun y => ?_⟩⟩
    have h := pow_le_pow_left₀ (norm_nonneg _) (le fun j => y j) 2
    rw [sq, sq] at h
    rw [Finset.sum_range, Finset.sum_range]
    simp only [Finset.sum_range]
    have hx : ∀ j : Fin n, (List.ofFn x).getD j 0 = x j := fun j => by rw [List.getD_eq_getElem _ _ (by simp), List.getElem_ofFn]
    simp only [hx]
    exact h
  choose f hf using key
  exact ⟨f, fun n S b hb => hf n S b hb⟩

/-- one qubit, `H = X`, reference `|0⟩`, all strings with an odd number of Y, five steps, a Lanczos vector every second step -/
noncomputable def demo : QiteAlg := { nqb := 1, ham := [(1, [gX 0])], expansionType := "cqoy", doLanczos := true, beta := 1, db := 1 / 5 }

theorem demo_ready : demo.Ready := by
  refine ⟨⟨fun g hg => absurd hg (by simp [demo]), fun g hg => absurd hg (by simp [demo])⟩, fun t ht => ?_, by decide⟩
  simp only [demo, List.mem_cons, List.not_mem_nil, or_false] at ht
  subst ht
  refine ⟨by simp, ⟨?_, by simp, ?_⟩⟩
  · intro g hg
    simp only [List.mem_cons, List.not_mem_nil, or_false] at hg
    subst hg; exact pauliGate_X 0
  · intro g hg
    simp only [List.mem_cons, List.not_mem_nil, or_false] at hg
    subst hg; simp [gX, demo]

theorem demo_ham : demo.ham.op = (gX 0).op := by
  simp [demo, QubitOperator.op, Circuit.op]

theorem demo_ref : demo.reference = Pi.single 0 1 := by
  unfold reference
  rw [init_psi]; simp only [demo, Circuit.op]
  funext I; simp [Pi.single_apply]

theorem demo_energy : energy 1 demo.ham.op demo.reference = 0 := by
  rw [demo_ham, demo_ref]
  unfold energy
  rw [op_gX]
  simp [inner, Finset.sum_range_succ, opX_apply, flipBit]

theorem demo_rhs : rhsElem 1 demo.ham.op demo.db demo.reference [gY 0] = -1 := by
  unfold rhsElem
  rw [demo_energy, demo_ham, demo_ref]
  simp [inner, Finset.sum_range_succ, opX_apply, opY_apply, flipBit, Circuit.op]

theorem demo_canonical : Circuit.Canonical [gY 0] := by
  refine canonical_iff.2 ⟨?_, by simp⟩
  intro g hg
  obtain rfl := List.mem_singleton.1 hg
  exact pauliGate_Y 0

/-- C82, C84, a concrete case: the pool contains `Y`, the algorithm is ready, and in the first step `Y` is chosen with the right-hand side `-1`, so that `C82_run` or `C84_run`
and `C82_descent` apply; there are five steps and three Lanczos vectors. -/
theorem C82_example (N : SQOpPool.NextPerm) (o : SQOperator.DescSort) (so : QubitOperator.SortOracle) (fuel : ℕ) :
    demo.Ready ∧ demo.GoodBuild none ∧ demo.db ≠ 0 ∧ demo.lanczosGap ≠ 0 ∧ (pyTrunc (demo.beta / demo.db)).toNat = 5 ∧ demo.lanczosTimes 5 = [0, 2, 4] ∧
    0 < 1 - 2 * demo.db * energy demo.nqb demo.ham.op demo.reference ∧
    ∃ σ, demo.buildExpansionPool N o so fuel = .ok (poolOf σ) ∧ (∀ c ∈ σ, c.PauliString demo.nqb) ∧ demo.StepDefined σ ∧
      [gY 0] ∈ demo.chosen σ demo.reference ∧ rhsElem demo.nqb demo.ham.op demo.db demo.reference [gY 0] = -1 := by
  have hE : energy demo.nqb demo.ham.op demo.reference = 0 := demo_energy
  obtain ⟨σ, e, -, hσ⟩ := (C82_pool_qubit N o so fuel demo (by decide)).2 rfl (by decide)
  refine ⟨demo_ready, .inl rfl, by norm_num [demo], by decide, ?_, by decide, by rw [hE]; norm_num, σ, e, fun c hc => ?_, .inl rfl, ?_, demo_rhs⟩
  · have : demo.beta / demo.db = 5 := by norm_num [demo]
    rw [this]; unfold pyTrunc
    rw [if_pos (by norm_num)]
    simp
  · obtain ⟨h1, h2, -⟩ := (hσ c).1 hc
    exact canonical_pauliString h1 h2
  · unfold chosen
    rw [if_pos (by rfl), if_neg (by rw [hE]; norm_num)]
    refine List.mem_filter.2 ⟨(hσ _).2 ⟨demo_canonical, by simp [gY, demo], by simp [Circuit.numY, gY]⟩, ?_⟩
    have : rhsElem demo.nqb demo.ham.op demo.db demo.reference [gY 0] = -1 := demo_rhs
    rw [this]
    norm_num [demo]

/-- C82, C84: the contracts of the numerical routines can be met, and then the run of the concrete case succeeds -/
theorem C84_example (N : SQOpPool.NextPerm) (o : SQOperator.DescSort) (so : QubitOperator.SortOracle) (fuel : ℕ) :
    ∃ ls eig r, IsLstsq ls ∧ DescEig eig ∧ demo.run N o so fuel ls eig none = .ok r := by
  obtain ⟨ls, hls⟩ := exists_lstsq
  obtain ⟨eig, hE⟩ := exists_descEig
  obtain ⟨h1, h2, h3, h4, -, -, -, σ, h5, h6, h7, -⟩ := C82_example N o so fuel
  obtain ⟨st, ψ, x, ph, M, E, e, -⟩ := C84_run h1 hls h2 h3 h6 h7 rfl h4 N o so fuel hE h5
  exact ⟨ls, eig, _, hls, hE, e⟩

end QiteAlg
end QF
