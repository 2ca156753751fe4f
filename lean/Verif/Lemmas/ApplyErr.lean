import Verif.Lemmas.Norm
import Verif.Lemmas.ComputerOps
import Verif.Lemmas.Exact

namespace QF

theorem FastOK.adjoint {g : Gate} (ha : ApiGate g) (h : FastOK g) : FastOK g.adjoint := by
  have hm := api_adjoint_mat ha.any
  have ht := adjoint_target g
  have ns : ∀ a b c d : ℂ, NoSwapBug a b c d →
      NoSwapBug ((starRingEnd ℂ) a) ((starRingEnd ℂ) c) ((starRingEnd ℂ) b) ((starRingEnd ℂ) d) := by
    intro a b c d hn h1 h2
    have h2' : b = c := by
      have := congrArg (starRingEnd ℂ) h2
      simpa using this.symm
    have := hn (by simpa using h1) h2'
    rw [← h2', this]; simp
  refine ⟨?_, ?_⟩
  · intro he
    rw [ht.1, ht.2] at he
    rw [hm]; exact ns _ _ _ _ (h.1 he)
  · intro he
    rw [ht.1, ht.2] at he
    rw [hm]; exact ns _ _ _ _ (h.2 he)

/-- relative error bound after `k` gates -/
noncomputable def runErr (k : ℕ) : ℝ := (1 + 4e-16) ^ k - 1

theorem runErr_nonneg (k : ℕ) : 0 ≤ runErr k := by
  unfold runErr
  have : (1 : ℝ) ≤ (1 + 4e-16) ^ k := one_le_pow₀ (by norm_num)
  linarith

theorem nrm_circuit {n : ℕ} {c : Circuit} (hf : c.Fits n) (hu : ∀ g ∈ c, MatUnitary g.target g.control g.mat) (ψ : St) :
    nrm n (c.op ψ) = nrm n ψ := by
  induction c generalizing ψ with
  | nil => rfl
  | cons g c ih =>
    rw [Circuit.op_cons, Module.End.mul_apply, ih (fun x hx => hf x (by simp [hx])) (fun x hx => hu x (by simp [hx]))]
    exact nrm_unitary (hf g (by simp)).1 (hf g (by simp)).2 (hu g (by simp)) ψ

/-- a run of a circuit by steps each of which applies a matrix within 1e-16 of the gate's -/
theorem run_near (step : Computer → Gate → Except Exc Computer) (ok : Gate → Prop)
    (hstep : ∀ (q : Computer) (g : Gate), q.WF → g.target < q.nqubit → g.control < q.nqubit → ok g →
      ∃ q' m', step q g = .ok q' ∧ q'.WF ∧ q'.nqubit = q.nqubit ∧ Near m' g.mat ∧ q'.psi = matOp g.target g.control m' q.psi) :
    ∀ (c : Circuit) (q : Computer), q.WF → c.Fits q.nqubit → (∀ g ∈ c, ok g ∧ MatUnitary g.target g.control g.mat) →
    ∃ q', c.foldlM step q = .ok q' ∧ q'.WF ∧ q'.nqubit = q.nqubit ∧ nrm q.nqubit (q'.psi - c.op q.psi) ≤ runErr c.length * nrm q.nqubit q.psi := by
  intro c
  induction c with
  | nil => intro q hq _ _; exact ⟨q, rfl, hq, rfl, by simp [nrm_zero, runErr]⟩
  | cons g c ih =>
    intro q hq hf hg
    obtain ⟨ht, hc⟩ := hf g (by simp)
    obtain ⟨q1, m', e1, e2, e3, e4, e5⟩ := hstep q g hq ht hc (hg g (by simp)).1
    obtain ⟨q2, f1, f2, f3, f4⟩ := ih q1 e2 (fun x hx => by rw [e3]; exact hf x (by simp [hx])) (fun x hx => hg x (by simp [hx]))
    have hu := (hg g (by simp)).2
    have hcf : Circuit.Fits q.nqubit c := fun x hx => hf x (by simp [hx])
    refine ⟨q2, ?_, f2, by rw [f3, e3], ?_⟩
    · rw [List.foldlM_cons, e1]; exact f1
    · rw [e3] at f4
      have d1 : nrm q.nqubit (q1.psi - g.op q.psi) ≤ 4e-16 * nrm q.nqubit q.psi := by
        rw [e5]; unfold Gate.op
        rw [matOp_sub]
        refine le_trans (nrm_matOp_small ht hc (ε := 1e-16) (by norm_num) (fun i j => by rw [Matrix.sub_apply]; exact e4 i j) q.psi) (le_of_eq ?_)
        norm_num
      have d2 : nrm q.nqubit q1.psi ≤ (1 + 4e-16) * nrm q.nqubit q.psi := by
        have h1 : q1.psi = (q1.psi - g.op q.psi) + g.op q.psi := by abel
        have h2 : nrm q.nqubit (g.op q.psi) = nrm q.nqubit q.psi := nrm_unitary ht hc hu _
        rw [h1]
        refine le_trans (nrm_add_le _ _ _) ?_
        rw [h2]; linarith
      have split : q2.psi - Circuit.op (g :: c) q.psi = (q2.psi - Circuit.op c q1.psi) + Circuit.op c (q1.psi - g.op q.psi) := by
        rw [Circuit.op_cons, Module.End.mul_apply, map_sub]; abel
      rw [split]
      refine le_trans (nrm_add_le _ _ _) ?_
      rw [nrm_circuit hcf (fun x hx => (hg x (by simp [hx])).2)]
      have h3 : runErr c.length * nrm q.nqubit q1.psi ≤ runErr c.length * ((1 + 4e-16) * nrm q.nqubit q.psi) :=
        mul_le_mul_of_nonneg_left d2 (runErr_nonneg _)
      have h4 : runErr (g :: c).length = runErr c.length * (1 + 4e-16) + 4e-16 := by
        unfold runErr; rw [List.length_cons, pow_succ]; ring
      rw [h4]; linarith

theorem applyCircuit_near {q : Computer} (c : Circuit) (hq : q.WF) (hf : c.Fits q.nqubit) (ha : ∀ g ∈ c, ApiGate g) (hx : ∀ g ∈ c, FastOK g) :
    ∃ q', q.applyCircuit c = .ok q' ∧ q'.WF ∧ q'.nqubit = q.nqubit ∧ nrm q.nqubit (q'.psi - c.op q.psi) ≤ runErr c.length * nrm q.nqubit q.psi :=
  run_near Computer.applyGate (fun g => ApiGate g ∧ FastOK g) (by
    intro q g hq ht hc h
    obtain ⟨q', m', e1, e2, e3, e4, _, e6⟩ := applyGate_ok q g hq ht hc (api_unitary h.1) h.2
    exact ⟨q', m', e1, e2, e3, e4, e6⟩) c q hq hf (fun g hg => ⟨⟨ha g hg, hx g hg⟩, api_unitary (ha g hg)⟩)

theorem trunc_near' (z : ℂ) : ‖trunc z - z‖ ≤ 1e-16 := by
  unfold trunc
  by_cases h : ‖z‖ > thr
  · rw [if_pos h]; simp; norm_num
  · rw [if_neg h]; simpa [thr] using h

theorem applyCircuitSafe_near {q : Computer} (c : Circuit) (hq : q.WF) (hf : c.Fits q.nqubit) (ha : ∀ g ∈ c, ApiGate g) :
    ∃ q', q.applyCircuitSafe c = .ok q' ∧ q'.WF ∧ q'.nqubit = q.nqubit ∧ nrm q.nqubit (q'.psi - c.op q.psi) ≤ runErr c.length * nrm q.nqubit q.psi :=
  run_near Computer.applyGateSafe (fun g => ApiGate g) (by
    intro q g hq ht hc h
    obtain ⟨q', e1, e2, e3, e4⟩ := applyGateSafe_ok q g hq ht hc
    refine ⟨q', _, e1, e2, e3, ?_, e4⟩
    intro i j
    exact trunc_near' (g.mat i j)) c q hq hf (fun g hg => ⟨ha g hg, api_unitary (ha g hg)⟩)

theorem inner_le (n : ℕ) (φ ψ : St) : ‖inner n φ ψ‖ ≤ nrm n φ * nrm n ψ := by
  have h := norm_inner_le_norm (𝕜 := ℂ) (toE n φ) (toE n ψ)
  rw [nrm_eq, nrm_eq]
  refine le_trans (le_of_eq ?_) h
  congr 1
  unfold inner
  rw [PiLp.inner_apply, Finset.sum_range]
  refine Finset.sum_congr rfl (fun i _ => ?_)
  simp [toE, mul_comm]

theorem inner_add_left (n : ℕ) (a b c : St) : inner n (a + b) c = inner n a c + inner n b c := by
  unfold inner; rw [← Finset.sum_add_distrib]
  exact Finset.sum_congr rfl fun I _ => by rw [Pi.add_apply, map_add]; ring
theorem inner_add_right (n : ℕ) (a b c : St) : inner n a (b + c) = inner n a b + inner n a c := by
  unfold inner; rw [← Finset.sum_add_distrib]
  exact Finset.sum_congr rfl fun I _ => by rw [Pi.add_apply]; ring
theorem inner_sub_left (n : ℕ) (a b c : St) : inner n (a - b) c = inner n a c - inner n b c := by
  unfold inner; rw [← Finset.sum_sub_distrib]
  exact Finset.sum_congr rfl fun I _ => by rw [Pi.sub_apply, map_sub]; ring
theorem inner_sub_right (n : ℕ) (a b c : St) : inner n a (b - c) = inner n a b - inner n a c := by
  unfold inner; rw [← Finset.sum_sub_distrib]
  exact Finset.sum_congr rfl fun I _ => by rw [Pi.sub_apply]; ring
theorem inner_smul_right (n : ℕ) (z : ℂ) (a b : St) : inner n a (z • b) = z * inner n a b := by
  unfold inner; rw [Finset.mul_sum]
  exact Finset.sum_congr rfl fun I _ => by rw [Pi.smul_apply, smul_eq_mul]; ring
theorem inner_zero_right (n : ℕ) (a : St) : inner n a 0 = 0 := by unfold inner; simp

theorem inner_circuit {n : ℕ} {c : Circuit} (hf : c.Fits n) (hu : ∀ g ∈ c, MatUnitary g.target g.control g.mat) (φ ψ : St) :
    inner n (c.op φ) (c.op ψ) = inner n φ ψ := by
  induction c generalizing φ ψ with
  | nil => rfl
  | cons g c ih =>
    rw [Circuit.op_cons, Module.End.mul_apply, Module.End.mul_apply, ih (fun x hx => hf x (by simp [hx])) (fun x hx => hu x (by simp [hx]))]
    exact inner_matOp (hf g (by simp)).1 (hf g (by simp)).2 (hu g (by simp)) φ ψ

end QF
