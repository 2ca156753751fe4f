import Verif.Props.SpqeEstimate
import Verif.Props.SpqeSampled

/-!
C88: a concrete run of SPQE.
-/
namespace QF

open SQOperator (DescSort)
open QubitOperator (SortOracle)
open SQOpPool Filter Topology

namespace Spqe

/-- one electron in two spatial orbitals, moved by the Hamiltonian `X X` on the alpha spin orbitals -/
noncomputable def hopSpqe : PqeAlg where
  nqb := 4
  uprep := [gX 0]
  ham := [(1, [gX 0, gX 2])]
  pool := []
  tops := []
  tamps := []
  ref := [1, 0, 0, 0]
  refprep := [gX 0]

theorem hop_ham : ∀ t ∈ hopSpqe.ham, t.1.im = 0 ∧ t.2.PauliString 4 := by
  intro t ht
  simp only [hopSpqe, List.mem_cons, List.not_mem_nil, or_false] at ht
  subst ht
  refine ⟨by simp, ?_, by simp [gX], ?_⟩
  · intro g hg
    simp only [List.mem_cons, List.not_mem_nil, or_false] at hg
    rcases hg with rfl | rfl <;> exact pauliGate_X _
  · intro g hg
    simp only [List.mem_cons, List.not_mem_nil, or_false] at hg
    rcases hg with rfl | rfl <;> simp [gX]

theorem hop_input (dt : ℝ) : Input hopSpqe { dt := dt, optimizer := "bfgs" } 2 1 [0, 0] := by
  refine ⟨rfl, by norm_num, by norm_num, by unfold Occ; simp [hopSpqe], rfl, ?_, ?_, by simp, by simp, .inl (by simp [hopSpqe]), ⟨Computer.WF.init 4, rfl, ⟨?_, ?_⟩, ?_⟩, rfl, rfl,
    by simp [hopSpqe], hop_ham⟩
  · intro i
    rcases i with _ | _ | _ | _ | i
    · rfl
    · rfl
    · rfl
    · rfl
    · rw [Nat.testBit_lt_two_pow (lt_of_lt_of_le (by norm_num : 1 < 2 ^ 4) (Nat.pow_le_pow_right (by norm_num) (by omega)))]
      simp [hopSpqe]
  · obtain ⟨C, e, rfl⟩ := refprep_eq hopSpqe.ref
    rw [e]; rfl
  · intro g hg
    simp only [hopSpqe, List.mem_cons, List.not_mem_nil, or_false] at hg
    subst hg; simp [gX, hopSpqe]
  · intro g hg
    simp only [hopSpqe, List.mem_cons, List.not_mem_nil, or_false] at hg
    subst hg; exact (pauliGate_X _).exact
  · intro t ht
    have := (hop_ham t ht).2
    exact ⟨this.fits, fun g hg => (this.gates g hg).exact⟩

theorem hop_targets : targets 2 1 [0, 0] 0 none = [4] ∧ targets 2 1 [0, 0] 1 none = [] := by
  have dec : ∀ s, targets 2 1 [0, 0] s none = (List.range (2 ^ 4)).filter fun I =>
      decide (I ≠ 1) && decide (spinNum 0 2 1 = spinNum 0 2 I) && decide (spinNum 1 2 1 = spinNum 1 2 I) && decide (irrepOf [0, 0] (holes 4 I 0) = s) := by
    classical
    intro s
    unfold targets
    apply List.filter_congr
    intro I _
    rw [Bool.eq_iff_iff, decide_eq_true_iff]
    unfold Target SameSpin
    simp [and_assoc]
  rw [dec, dec]; decide

theorem hop_residual : ‖detResidual 4 hopSpqe.ham.op 1 (Pi.single 1 1) 4‖ = 1 := by
  have hH : hopSpqe.ham.op = opX 2 * opX 0 := by simp [hopSpqe, QubitOperator.op, Circuit.op]
  unfold detResidual
  rw [hH]
  unfold inner
  rw [Finset.sum_eq_single 4]
  · simp only [Module.End.one_apply, Module.End.mul_apply, opX_apply, flipBit, Pi.single_eq_same]
    rw [show (4 ^^^ 2 ^ 2) ^^^ 2 ^ 0 = 1 from rfl]
    simp
  · intro I _ hI; simp [Pi.single_eq_of_ne hI]
  · intro h; simp at h

/-- scipy's minimizer replaced by one that stays at the start -/
def stayExt : Ext where
  lstsq := fun _ b => b
  minimize := fun B => .ok B.tamps
  choice := fun _ _ _ => .error .valueError
  orbE := []

/-- C88: with the default threshold and number of iterations and a small `dt` the run on this algorithm returns: the hypotheses of `C88_run`, `C88_bound`, `C88_returns` and
`C88_estimate` can be met; with the irrep of no determinant it ends with `IndexError`. -/
theorem C88_example (o : DescSort) (so : SortOracle) : MinimizeContract stayExt ∧
    (∃ dt : ℝ, dt ≠ 0 ∧ Input hopSpqe { dt := dt, optimizer := "bfgs" } 2 1 [0, 0] ∧
      ∃ r, run o so none stayExt { dt := dt, optimizer := "bfgs" } true [0, 0] 0 hopSpqe 22 = .ok r) ∧
    run o so none stayExt { dt := 0.001, optimizer := "bfgs" } true [0, 0] 1 hopSpqe 22 = .error .indexError := by
  have hM : MinimizeContract stayExt := by intro B x h; cases h; rfl
  refine ⟨hM, ?_, ?_⟩
  · have hp : ∀ dt : ℝ, ∃ p : Circuit × ℂ, trotterize hopSpqe.ham ((dt : ℂ) * Complex.I) hopSpqe.trotterNumber = .ok p := by
      intro dt
      obtain ⟨C, ph, h, _⟩ := propagator (hop_input dt)
      exact ⟨(C, ph), h⟩
    choose K hK using hp
    have hlim := C88_estimate hopSpqe {} 2 1 [0, 0] (by
      have := hop_input 0
      exact ⟨this.size, this.pos, this.small, this.occ, this.len, this.isRef, this.prep, this.irreps, this.rank, this.low, this.ready, this.fresh, this.standard, this.steps, this.ham⟩)
      rfl [] (by intro g hg; simp at hg) (by simp) 4 (by simp [hopSpqe]) (by norm_num) (fun dt => (K dt).1) (fun dt => (K dt).2) (fun dt => hK dt)
    have hs := start_inv hopSpqe 2 1 (targets 2 1 [0, 0] 0 none)
    have href : hopSpqe.reference = Pi.single 1 1 := (hs.sound (irrep := 0) (hop_input 0)).reference (hs.ready (hop_input 0)) rfl rfl
    have h1 : Circuit.op ([] : Circuit) = 1 := rfl
    have hnq : hopSpqe.nqb = 4 := rfl
    rw [h1, hnq, href, hop_residual, one_pow] at hlim
    have ev := hlim.eventually (lt_mem_nhds (show (1 / 2 : ℝ) < 1 by norm_num))
    obtain ⟨dt, hdt, hne⟩ := (ev.and self_mem_nhdsWithin).exists
    refine ⟨dt, hne, hop_input dt, ?_⟩
    refine (C88_returns o so stayExt hM { dt := dt, optimizer := "bfgs" } rfl hopSpqe 2 1 [0, 0] (hop_input dt) 0 (K dt).1 (K dt).2 (hK dt)).2 ⟨?_, ?_⟩ ?_ 22 (by simp)
    · simp only [hop_targets.1]
      unfold firstEstimate
      simp only [List.map_cons, List.map_nil, List.sum_singleton, hnq, href]
      refine le_trans ?_ hdt.le
      norm_num
    · left; simp only [hop_targets.1]; simp
    · intro st hinv
      obtain ⟨ψ, hE, _⟩ := hinv.energy (hop_input dt) rfl o so st.alg.tamps
      refine ⟨(st.alg.tamps, energy hopSpqe.nqb hopSpqe.ham.op ψ), ?_⟩
      unfold solveFor
      rw [if_neg (by simp), if_pos (by simp), hE, except_ok_bind]
      simp only [stayExt, except_ok_bind, hE]
      rfl
  · obtain ⟨C, ph, h, _⟩ := propagator (hop_input 0.001)
    refine (C88_returns o so stayExt hM { dt := 0.001, optimizer := "bfgs" } rfl hopSpqe 2 1 [0, 0] (hop_input 0.001) 1 C ph h).1 (.inl ?_) 22 (by norm_num)
    simp only [hop_targets.2, firstEstimate, List.map_nil, List.sum_nil]
    norm_num

end Spqe
end QF
