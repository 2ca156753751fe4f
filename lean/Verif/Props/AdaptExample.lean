import Verif.Props.AdaptTotal

/-!
C85: a concrete run of ADAPT-VQE.
-/
namespace QF

open SQOperator (DescSort)
open QubitOperator (SortOracle)

namespace Adapt

/-- two orbitals, one electron that the Hamiltonian `X X` moves -/
noncomputable def hopAlg : UccAlg where
  nqb := 2
  uprep := [gX 0]
  ham := [(1, [gX 0, gX 1])]
  pool := [(1, excTerms [1] [0])]
  tops := []
  tamps := []

theorem hop_ham : ∀ t ∈ hopAlg.ham, t.1.im = 0 ∧ t.2.PauliString 2 := by
  intro t ht
  simp only [hopAlg, List.mem_cons, List.not_mem_nil, or_false] at ht
  subst ht
  refine ⟨by simp, ?_, by simp [gX], ?_⟩
  · intro g hg
    simp only [List.mem_cons, List.not_mem_nil, or_false] at hg
    rcases hg with rfl | rfl <;> exact pauliGate_X _
  · intro g hg
    simp only [List.mem_cons, List.not_mem_nil, or_false] at hg
    rcases hg with rfl | rfl <;> simp [gX]

theorem hop_ready : hopAlg.Ready := by
  refine ⟨Computer.WF.init 2, rfl, ⟨?_, ?_⟩, ?_⟩
  · intro g hg
    simp only [hopAlg, List.mem_cons, List.not_mem_nil, or_false] at hg
    subst hg; simp [gX, hopAlg]
  · intro g hg
    simp only [hopAlg, List.mem_cons, List.not_mem_nil, or_false] at hg
    subst hg; exact (pauliGate_X _).exact
  · intro t ht
    have := (hop_ham t ht).2
    exact ⟨this.fits, fun g hg => (this.gates g hg).exact⟩

theorem hop_pool : ExcPool hopAlg := by
  intro e he
  simp only [hopAlg, List.mem_cons, List.not_mem_nil, or_false] at he
  subst he
  exact ⟨[1], [0], rfl, by constructor <;> simp [hopAlg], by simp, by simp⟩

/-- the gradient of the reference state is ±2 -/
theorem hop_gradient (o : DescSort) (so : SortOracle) : ∃ g, hopAlg.measureGradient3 o so = .ok [g] ∧ |g| = 2 := by
  obtain ⟨C, h1, h2, h3, h4⟩ := grown_build o so hop_pool rfl rfl (by simp [hopAlg]) (B := hopAlg) ⟨rfl, rfl, by simp [hopAlg]⟩ []
  have hR := hop_ready
  obtain ⟨gs, hg, hF⟩ := C72_excitations o so hopAlg hR _ h1 (fits_append hR.prep.1 h3) (by
    intro g hg
    rcases List.mem_append.1 hg with hg | hg
    · exact hR.prep.2 g hg
    · exact (h2 g hg).2) (hermitian_of_real hop_ham) hop_pool
  have hop : Circuit.op (hopAlg.uprep ++ C) = opX 0 := by
    rw [Circuit.op_append, h4 rfl]; simp [hopAlg, Circuit.op]
  rw [hop] at hF
  have hF' : ∃ g, gs = [g] ∧ (g : ℂ) = inner 2 (opX 0 (Computer.init 2).psi)
      ((hopAlg.ham.op * (((1 : ℂ)) • kappa false [1] [0]) - (((1 : ℂ)) • kappa false [1] [0]) * hopAlg.ham.op) (opX 0 (Computer.init 2).psi)) := by
    have hpool : hopAlg.pool = [(1, excTerms [1] [0])] := rfl
    rw [hpool] at hF
    cases hF with
    | cons h hF =>
      cases hF
      exact ⟨_, rfl, (h [1] [0] rfl (by constructor <;> simp [hopAlg])).1⟩
  obtain ⟨g, rfl, hg2⟩ := hF'
  refine ⟨g, hg, ?_⟩
  have : (g : ℂ) = 2 := by
    rw [hg2]
    have hH : hopAlg.ham.op = opX 1 * opX 0 := by
      simp [hopAlg, QubitOperator.op, Circuit.op]
    rw [hH, init_psi, one_smul]
    unfold inner
    rw [show (2 : ℕ) ^ 2 = 4 from rfl]
    simp only [Finset.sum_range_succ, Finset.sum_range_zero, kappa, fermiString, Bool.false_eq_true, if_false, List.reverse_singleton, List.map_cons, List.map_nil, List.prod_singleton,
      LinearMap.sub_apply, Module.End.mul_apply, opX_apply, ladder, flipBit, fsign, nBelow, Pi.sub_apply, LinearMap.coe_mk, AddHom.coe_mk]
    simp [List.range_succ]
    rw [if_pos (by decide)]
    norm_num
  rw [show g = 2 from by exact_mod_cast this]
  norm_num

/-- C85: with the default options, a run on this algorithm returns (for every optimizer that keeps the contract and always returns, and there is one), so it
satisfies the hypotheses of `C85_run` and `C85_bounds`, and the first iteration satisfies those of `C85_select` and `C85_descent`. -/
theorem C85_example (o : DescSort) (so : SortOracle) : ExcPool hopAlg ∧ hopAlg.PoolSound ∧ hopAlg.Ready ∧ HermitianOn hopAlg.nqb hopAlg.ham.op ∧
    ∃ S, Contract o so none S ∧ ∃ r, run o so none S {} hopAlg = .ok r := by
  refine ⟨hop_pool, excPool_sound hop_pool rfl, hop_ready, hermitian_of_real hop_ham, ?_⟩
  obtain ⟨S, h1, h2⟩ := contract_exists o so none
  refine ⟨S, h1, ?_⟩
  obtain ⟨gs, h3, h4, _⟩ := C85_returns o so S h1 h2 {} rfl rfl (by norm_num) hopAlg hop_pool rfl rfl (by simp [hopAlg]) hop_ready
  obtain ⟨g, h5, h6⟩ := hop_gradient o so
  refine h4 ?_
  have : gs = [g] := by
    have := h3.symm.trans h5
    cases this; rfl
  rw [this]
  unfold gradNorm
  simp only [List.map_cons, List.map_nil, List.sum_singleton]
  rw [Real.sqrt_sq_eq_abs, h6]
  norm_num

end Adapt
end QF
