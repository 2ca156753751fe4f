import Verif.Props.ZeroKrylov
import Verif.Props.PqeRun
import Verif.Props.OrbEnergies
import Verif.Props.Builds

/-!
C120 for the unitary coupled cluster algorithms: a constant added to the Hamiltonian.
-/
namespace QF

open SQOperator (DescSort)
open QubitOperator (SortOracle)

theorem Shifted.exact {c : ℝ} {H H' : QubitOperator} (h : Shifted c H H') {n : ℕ} (hH : ∀ t ∈ H, t.2.Fits n ∧ ∀ g ∈ t.2, ExactGate g) :
    ∀ t ∈ H', t.2.Fits n ∧ ∀ g ∈ t.2, ExactGate g := by
  obtain ⟨pre, post, e, e', h1, rfl, -⟩ := h
  have key : ∀ t ∈ pre ++ post, t.2.Fits n ∧ ∀ g ∈ t.2, ExactGate g := by
    rcases h1 with rfl | ⟨-, rfl⟩
    · intro t ht
      refine hH t ?_
      rcases List.mem_append.1 ht with h | h <;> simp [h]
    · exact hH
  intro t ht
  rcases List.mem_append.1 ht with h | h
  · exact key t (by simp [h])
  · rcases List.mem_cons.1 h with rfl | h
    · exact ⟨fun g hg => (List.not_mem_nil hg).elim, fun g hg => (List.not_mem_nil hg).elim⟩
    · exact key t (by simp [h])

/-- `H'` acts as `H` plus the constant `c`, however its terms are written (order, repetitions, factors), on the `n` qubits -/
structure OpShift (n : ℕ) (c : ℝ) (H H' : QubitOperator) : Prop where
  op : H'.op = H.op + (c : ℂ) • (1 : Op)
  fits : ∀ t ∈ H', t.2.Fits n ∧ ∀ g ∈ t.2, ExactGate g

theorem Shifted.opShift {c : ℝ} {H H' : QubitOperator} (h : Shifted c H H') {n : ℕ} (hH : ∀ t ∈ H, t.2.Fits n ∧ ∀ g ∈ t.2, ExactGate g) : OpShift n c H H' :=
  ⟨h.op, h.exact hH⟩

theorem inner_shift (n : ℕ) {H H' : Op} {c : ℝ} (hs : H' = H + (c : ℂ) • (1 : Op)) (φ ψ : St) : inner n φ (H' ψ) = inner n φ (H ψ) + c * inner n φ ψ := by
  have : H' ψ = H ψ + (c : ℂ) • ψ := by rw [hs]; rfl
  rw [this]
  unfold inner
  rw [Finset.mul_sum, ← Finset.sum_add_distrib]
  refine Finset.sum_congr rfl fun I _ => ?_
  simp only [Pi.add_apply, Pi.smul_apply, smul_eq_mul]
  ring

/-- the ansatz circuit of all amplitudes exists and consists of exactly simulated gates -/
def UccAlg.ExactAnsatz (o : DescSort) (so : SortOracle) (A : UccAlg) : Prop :=
  ∀ ts, ∃ C, A.ansatzCircuit o so (some ts) = .ok C ∧ (∀ g ∈ C, ApiGate g ∧ ExactGate g) ∧ C.Fits A.nqb

theorem exactAnsatz (o : DescSort) (so : SortOracle) (A : UccAlg) (xs : List (List ℕ × List ℕ)) (h : A.Selects xs) (hs : A.saSD = false) (hc : A.compact = false)
    (hN : 1 ≤ A.trotterNumber) : A.ExactAnsatz o so := by
  intro ts
  obtain ⟨Vs, hV⟩ := flows_exist A.qubitExc xs
  obtain ⟨C, h1, -, h2, h3⟩ := C70_exact_used o so A xs h hs hc hN ts Vs hV
  exact ⟨C, h1, h2, h3⟩

/-- the object with another Hamiltonian -/
def UccAlg.withHam (A : UccAlg) (H : QubitOperator) : UccAlg := { A with ham := H }

theorem directOp_shift {q : Computer} (w : q.WF) {c : ℝ} {H H' : QubitOperator} (hs : OpShift q.nqubit c H H') (hH : ∀ t ∈ H, t.2.Fits q.nqubit ∧ ∀ g ∈ t.2, ExactGate g)
    (h1 : inner q.nqubit q.psi q.psi = 1) : ∃ v q1 q2, q.directOpExpVal none H = .ok (v, q1) ∧ q.directOpExpVal none H' = .ok (v + c, q2) := by
  obtain ⟨q1, e1, -⟩ := C29_direct_op q H w hH
  obtain ⟨q2, e2, -⟩ := C29_direct_op q H' w hs.fits
  refine ⟨_, q1, q2, e1, ?_⟩
  rw [e2, inner_shift _ hs.op, h1, mul_one]

/-- C120: `energy_feval` at all amplitudes is shifted by the constant -/
theorem C120_energy (o : DescSort) (so : SortOracle) (A : UccAlg) (hE : A.ExactAnsatz o so) (hR : A.Ready) (h1 : inner A.nqb A.reference A.reference = 1) {c : ℝ}
    {ham' : QubitOperator} (hs : OpShift A.nqb c A.ham ham') (ts : List ℝ) :
    ∃ e, A.energyFeval o so none ts = .ok e ∧ (A.withHam ham').energyFeval o so none ts = .ok (e + c) := by
  obtain ⟨C, c1, c2, c3⟩ := hE ts
  obtain ⟨U, q, e1, e2, w, n, p⟩ := build_of_ansatz o so A ts hR c1 rfl (fun g hg => (c2 g hg).2) c3
  obtain ⟨v, q1, q2, d1, d2⟩ := directOp_shift w (by rw [n]; exact hs) (by rw [n]; exact hR.ham) (by
    rw [n, p, inner_circuit c3 (fun g hg => C02_unitary (c2 g hg).1), h1])
  refine ⟨v.re, ?_, ?_⟩
  · unfold UccAlg.energyFeval UccAlg.measureEnergy
    rw [e1, except_ok_bind, Option.getD_some, e2, except_ok_bind, d1, except_ok_bind]
    rfl
  · have e1' : (A.withHam ham').buildUvqc o so (some ts) = .ok U := e1
    unfold UccAlg.energyFeval UccAlg.measureEnergy
    rw [e1', except_ok_bind, Option.getD_some]
    have e2' : (A.withHam ham').initialComputer.applyCircuit U = .ok q := e2
    have d2' : q.directOpExpVal none (A.withHam ham').ham = .ok (v + c, q2) := d2
    rw [e2', except_ok_bind, d2', except_ok_bind]
    simp [pure, Except.pure]

/-- C120: `get_residual_vector` at all amplitudes is unchanged -/
theorem C120_residual (o : DescSort) (so : SortOracle) (A : PqeAlg) (hE : A.ExactAnsatz o so) (hR : A.Ready) (h0 : A.computer = none) {R : ℕ}
    (href : A.reference = Pi.single R 1) {dets : List (ℕ × ℂ)} (hd : ∀ d ∈ dets, d.1 < 2 ^ A.nqb ∧ d.1 ≠ R) {c : ℝ}
    {ham' : QubitOperator} (hs : OpShift A.nqb c A.ham ham') (ts : List ℝ) :
    ({ A with ham := ham' } : PqeAlg).residualVector o so dets ts = A.residualVector o so dets ts := by
  classical
  by_cases hsa : A.saSD = true
  · unfold PqeAlg.residualVector
    rw [if_pos hsa]
    have : ({ A with ham := ham' } : PqeAlg).saSD = true := hsa
    rw [if_pos this]
  have hsa' : ¬ ({ A with ham := ham' } : PqeAlg).saSD = true := hsa
  obtain ⟨C, h1, h3, h4⟩ := hE ts
  have e0 : A.initialComputer = Computer.init A.nqb := by unfold UccAlg.initialComputer; rw [h0]; rfl
  obtain ⟨q1, e1, w1, n1, p1⟩ := applyCircuit_exact (q := Computer.init A.nqb) A.uprep (Computer.WF.init _) hR.prep.1 hR.prep.2
  obtain ⟨q2, e2, w2, n2, p2⟩ := applyCircuit_exact (q := q1) C w1 (by rw [n1]; exact h4) (fun g hg => (h3 g hg).2)
  have hn2 : q2.nqubit = A.nqb := n2.trans n1
  obtain ⟨q3, e3, w3, n3, p3⟩ := C24_apply_operator q2 A.ham w2 (by rw [hn2]; exact hR.ham)
  have hn3 : q3.nqubit = A.nqb := n3.trans hn2
  obtain ⟨q4, e4, w4, n4, p4⟩ := applyCircuit_exact (q := q3) C.adjoint w3 (by rw [hn3]; exact adj_fits h4) (adjoint_exact h3)
  have hn4 : q4.nqubit = A.nqb := n4.trans hn3
  obtain ⟨r3, f3, v3, m3, s3⟩ := C24_apply_operator q2 ham' w2 (by rw [hn2]; exact hs.fits)
  have hm3 : r3.nqubit = A.nqb := m3.trans hn2
  obtain ⟨r4, f4, v4, m4, s4⟩ := applyCircuit_exact (q := r3) C.adjoint v3 (by rw [hm3]; exact adj_fits h4) (adjoint_exact h3)
  have hm4 : r4.nqubit = A.nqb := m4.trans hm3
  have hun := circuit_adjoint_op (fun g hg => (h3 g hg).1)
  have hq1 : q1.psi = Pi.single R 1 := by rw [p1, ← href, UccAlg.reference, e0]
  have hpsi : r4.psi = q4.psi + (c : ℂ) • (Pi.single R 1 : St) := by
    have e5 : ham'.op q2.psi = A.ham.op q2.psi + (c : ℂ) • q2.psi := by rw [hs.op]; rfl
    have e6 : C.adjoint.op (C.op (Pi.single R 1)) = (Pi.single R 1 : St) := by
      have := congrArg (fun W : Op => W (Pi.single R 1 : St)) hun.1
      simpa [Module.End.mul_apply] using this
    rw [s4, s3, e5, map_add, map_smul, ← p3, ← p4, p2, hq1, e6]
  have hU' : ({ A with ham := ham' } : PqeAlg).ansatzCircuit o so (some ts) = .ok C := h1
  unfold PqeAlg.residualVector
  rw [if_neg hsa, if_neg hsa', h1, hU', except_ok_bind, except_ok_bind, e1, except_ok_bind, except_ok_bind, e2, except_ok_bind, except_ok_bind, e3, except_ok_bind]
  have f3' : q2.applyOperator ({ A with ham := ham' } : PqeAlg).ham = .ok r3 := f3
  rw [f3', except_ok_bind, e4, except_ok_bind, f4, except_ok_bind]
  have hget : ∀ (q : Computer), q.WF → q.nqubit = A.nqb → ∀ J, J < 2 ^ A.nqb → pyIndex q.coeff J = .ok (q.psi J) := by
    intro q w hn J hJ
    have hlen : J < q.coeff.length := by rw [w.len, hn]; exact hJ
    refine pyIndex_ok ?_
    rw [List.getElem?_eq_getElem hlen]
    simp only [Computer.psi, vec, List.getD_eq_getElem _ _ hlen]
  have key : ∀ l : List (ℕ × ℂ), (∀ d ∈ l, d.1 < 2 ^ A.nqb ∧ d.1 ≠ R) → (l.mapM fun d => (do
      let z ← pyIndex r4.coeff d.1
      let r := z * d.2
      if r.im ≠ 0 then .error .valueError else pure r : Except Exc ℂ)) = l.mapM fun d => (do
      let z ← pyIndex q4.coeff d.1
      let r := z * d.2
      if r.im ≠ 0 then .error .valueError else pure r : Except Exc ℂ) := by
    intro l
    induction l with
    | nil => intro _; rfl
    | cons d l ih =>
      intro hl
      obtain ⟨a, b⟩ := hl d (by simp)
      rw [List.mapM_cons, List.mapM_cons, ih fun x hx => hl x (by simp [hx]), hget r4 v4 hm4 _ a, hget q4 w4 hn4 _ a]
      have : r4.psi d.1 = q4.psi d.1 := by
        rw [hpsi, Pi.add_apply, Pi.smul_apply, Pi.single_eq_of_ne (M := fun _ => ℂ) b, smul_zero, add_zero]
      rw [this]
  exact key dets hd


theorem energy_shift (n : ℕ) {H H' : Op} {c : ℝ} (hs : H' = H + (c : ℂ) • (1 : Op)) (ψ : St) : energy n H' ψ = energy n H ψ + c * (inner n ψ ψ).re := by
  unfold energy
  rw [inner_shift n hs, Complex.add_re, Complex.re_ofReal_mul]

theorem hermitian_shift {n : ℕ} {H H' : Op} {c : ℝ} (hs : H' = H + (c : ℂ) • (1 : Op)) (h : HermitianOn n H) : HermitianOn n H' := by
  intro φ ψ
  have e : H' φ = H φ + (c : ℂ) • φ := by rw [hs]; rfl
  rw [inner_shift n hs, h, e]
  unfold inner
  rw [Finset.mul_sum, ← Finset.sum_add_distrib]
  refine Finset.sum_congr rfl fun I _ => ?_
  simp only [Pi.add_apply, Pi.smul_apply, smul_eq_mul, map_add, map_mul, Complex.conj_ofReal]
  ring

/-- C120: `measure_gradient` is unchanged -/
theorem C120_gradient (o : DescSort) (so : SortOracle) (A : UccAlg) (xs : List (List ℕ × List ℕ)) (h : A.Selects xs) (hs : A.saSD = false)
    (hc : A.compact = false) (hN : A.trotterNumber = 1) (hz : A.UnitCoeffs) (ts : List ℝ) (hr : ∀ p ∈ List.zip ts xs, AmpResolved p.2 p.1)
    (hR : A.Ready) (hH : HermitianOn A.nqb A.ham.op) (h1 : ts.length = A.tops.length) (h2 : A.tamps.length = A.tops.length) (h3 : A.tops ≠ [])
    {c : ℝ} {ham' : QubitOperator} (hsh : OpShift A.nqb c A.ham ham') :
    ∃ g, A.measureGradient o so (some ts) = .ok g ∧ (A.withHam ham').measureGradient o so (some ts) = .ok g := by
  obtain ⟨Vs, hV⟩ := flows_exist A.qubitExc xs
  obtain ⟨g, a1, a2, a3⟩ := C71_gradient o so A xs h hs hc hN hz ts hr Vs hV hR hH h1 h2 h3
  obtain ⟨g', b1, b2, b3⟩ := C71_gradient o so (A.withHam ham') xs h hs hc hN hz ts hr Vs hV ⟨hR.wf, hR.size, hR.prep, hsh.fits⟩
    (hermitian_shift hsh.op hH) h1 h2 h3
  have hf : ∀ V ∈ Vs, ∃ K, Flow A.nqb K V := by
    have hx := selects_sound h
    clear h a3 b3 hr
    unfold Flows at hV
    induction hV with
    | nil => intro V hV; cases hV
    | @cons x V xs Vs hv _ ih =>
      intro W hW
      rcases List.mem_cons.1 hW with rfl | hW
      · have e := (hx x (by simp)).1
        exact ⟨_, kappa_flow e.bound_c e.bound_a hv⟩
      · exact ih (fun y hy => hx y (by simp [hy])) W hW
  have hE : ∀ us, uccEnergy A.nqb ham'.op A.reference Vs us = uccEnergy A.nqb A.ham.op A.reference Vs us + c * (inner A.nqb A.reference A.reference).re := by
    intro us
    unfold uccEnergy
    rw [energy_shift _ hsh.op, uccOp_unitary hf]
  refine ⟨g, a1, ?_⟩
  rw [b1]
  congr 1
  refine List.ext_getElem (by rw [a2, b2]) fun j hj hj' => ?_
  have d1 := a3 j (by omega) hj'
  have d2 : HasDerivAt (fun s => uccEnergy A.nqb ham'.op A.reference Vs (ts.set j s)) g'[j] (ts[j]'(by omega)) := b3 j (by omega) hj
  have d3 := d1.add_const (c * (inner A.nqb A.reference A.reference).re)
  simp only [hE] at d2
  exact d2.unique d3

theorem comm_shift (H K : Op) (z : ℂ) : (H + z • (1 : Op)) * K - K * (H + z • (1 : Op)) = H * K - K * H := by
  apply Op.ext'
  intro ψ I
  simp [Module.End.mul_apply]

/-- C120: the gradients with respect to the pool operators, by which ADAPT-VQE chooses, are unchanged -/
theorem C120_pool_gradient (o : DescSort) (so : SortOracle) (A : UccAlg) (hR : A.Ready) (U : Circuit) (hU : A.buildUvqc o so = .ok U) (hf : U.Fits A.nqb)
    (hg : ∀ g ∈ U, ExactGate g) (hH : HermitianOn A.nqb A.ham.op)
    (hp : ∀ e ∈ A.pool, ∃ c a, e.2 = excTerms c a ∧ Excit A.nqb c a ∧ c.length ≤ 19 ∧ e.1.im = 0)
    {c : ℝ} {ham' : QubitOperator} (hsh : OpShift A.nqb c A.ham ham') :
    ∃ g, A.measureGradient3 o so = .ok g ∧ (A.withHam ham').measureGradient3 o so = .ok g := by
  obtain ⟨g, a1, a2⟩ := C72_excitations o so A hR U hU hf hg hH hp
  obtain ⟨g', b1, b2⟩ := C72_excitations o so (A.withHam ham') ⟨hR.wf, hR.size, hR.prep, hsh.fits⟩ U hU hf hg (hermitian_shift hsh.op hH) hp
  refine ⟨g, a1, ?_⟩
  rw [b1]
  congr 1
  have hp' : (A.withHam ham').pool = A.pool := rfl
  rw [hp'] at b2
  clear a1 b1 hp'
  generalize A.pool = l at a2 b2 hp
  induction l generalizing g g' with
  | nil => cases a2; cases b2; rfl
  | cons e l ih =>
    rw [List.forall₂_cons_left_iff] at a2 b2
    obtain ⟨x, u, h1, h2, rfl⟩ := a2
    obtain ⟨x', u', h1', h2', rfl⟩ := b2
    obtain ⟨cc, aa, e1, e2, -, -⟩ := hp e (by simp)
    have k1 := (h1 cc aa e1 e2).1
    have k2 := (h1' cc aa e1 e2).1
    rw [ih u u' h2 h2' (fun y hy => hp y (by simp [hy]))]
    congr 1
    have : (x' : ℂ) = x := by
      rw [k1, k2]
      congr 1
      congr 1
      show ham'.op * _ - _ * ham'.op = _
      rw [hsh.op]
      exact comm_shift _ _ _
    exact_mod_cast this

/-- C120: the Jacobi solver with the energies shifted by a constant takes the same steps -/
theorem C120_jacobi (J : JacobiEnv) (J' : JacobiEnv) (c : ℝ) (he : ∀ ts, J'.energy ts = (J.energy ts).map (· + c)) (hr : ∀ ts, J'.residual ts = J.residual ts)
    (hp : ∀ r, J'.precond r = J.precond r) (h1 : J'.maxIter = J.maxIter) (h2 : J'.thresh = J.thresh) (h3 : J'.diisMaxDim = J.diisMaxDim) (h4 : J'.lstsq = J.lstsq)
    (ts : List ℝ) : jacobiSolver J' ts = (jacobiSolver J ts).map fun r => (r.1, r.2.1 + c, r.2.2) := by
  have step : ∀ s s' : JacobiState, s.tamps = s'.tamps → s.tDiis = s'.tDiis → s.eDiis = s'.eDiis →
      jacobiStep J' s' = (jacobiStep J s).map fun z => { z with energy := z.energy + c } := by
    intro s s' e1 e2 e3
    unfold jacobiStep
    rw [hr, ← e1, ← e2, ← e3, h3, h4]
    cases J.residual s.tamps with
    | error e => rfl
    | ok r =>
      simp only [except_ok_bind, hp]
      cases J.precond r with
      | error e => rfl
      | ok u =>
        simp only [except_ok_bind]
        cases npAdd s.tamps u with
        | error e => rfl
        | ok t =>
          simp only [except_ok_bind]
          cases npSub t s.tamps with
          | error e => rfl
          | ok e =>
            simp only [except_ok_bind]
            split_ifs
            · cases diis J.lstsq J.diisMaxDim (s.tDiis ++ [t]) (s.eDiis ++ [e]) with
              | error e => rfl
              | ok d =>
                obtain ⟨t', td, ed⟩ := d
                simp only [except_ok_bind, he]
                cases J.energy t' <;> rfl
            · simp only [pure_bind, he]
              cases J.energy t <;> rfl
  have loop : ∀ (fuel k : ℕ) (s s' : JacobiState), s'.tamps = s.tamps → s'.tDiis = s.tDiis → s'.eDiis = s.eDiis → s'.energy = s.energy + c →
      (jacobiLoop J' fuel k s').map (fun z => (z.1.tamps, z.1.energy, z.2)) = (jacobiLoop J fuel k s).map fun z => (z.1.tamps, z.1.energy + c, z.2) := by
    intro fuel
    induction fuel with
    | zero =>
      intro k s s' e1 e2 e3 e4
      simp only [jacobiLoop, Except.map, e1, e4]
    | succ fuel ih =>
      intro k s s' e1 e2 e3 e4
      rw [jacobiLoop, jacobiLoop, step s s' e1.symm e2.symm e3.symm]
      cases jacobiStep J s with
      | error e => rfl
      | ok z =>
        simp only [Except.map, except_ok_bind, h2]
        by_cases hn : z.norm < J.thresh
        · rw [if_pos hn, if_pos hn]
        · rw [if_neg hn, if_neg hn]
          exact ih (k + 1) z { z with energy := z.energy + c } rfl rfl rfl rfl
  unfold jacobiSolver
  rw [he]
  cases J.energy ts with
  | error e => rfl
  | ok E =>
    simp only [Except.map, except_ok_bind, h1]
    by_cases hm : J.maxIter = 0
    · rw [if_pos hm, if_pos hm]
    · rw [if_neg hm, if_neg hm]
      have := loop J.maxIter 0 { tamps := ts, tDiis := [ts], eDiis := [], energy := E, norm := 0 } { tamps := ts, tDiis := [ts], eDiis := [], energy := E + c, norm := 0 }
        rfl rfl rfl rfl
      revert this
      cases jacobiLoop J J.maxIter 0 { tamps := ts, tDiis := [ts], eDiis := [], energy := E, norm := 0 } <;>
        cases jacobiLoop J' J.maxIter 0 { tamps := ts, tDiis := [ts], eDiis := [], energy := E + c, norm := 0 } <;> intro this <;>
          first | (cases this; rfl) | exact this

theorem mapM_same {α β : Type} {f g : α → Except Exc β} {l : List α} (h : ∀ x ∈ l, f x = g x) : l.mapM f = l.mapM g := by
  induction l with
  | nil => rfl
  | cons x l ih => rw [List.mapM_cons, List.mapM_cons, h x (by simp), ih fun y hy => h y (by simp [hy])]

theorem uccnpqeRun_eq (N : SQOpPool.NextPerm) (o : DescSort) (so : SortOracle) (par : Option Schedule) (fuel : ℕ) (X : UccRunExt) (O : UccRunOpts) (A : AlgObj)
    (a : AlgArgs) (t : PoolArg) (hf : Option (List ℝ)) (hp : a.statePrep = "occupation_list") {U : UccAlg} (hU : startAnsatz N o fuel A a t = .ok U) :
    uccnpqeRun N o so par fuel X O A a t hf = (do
      let dets ← (A.pqe U).fillExcitedDets o
      let orbE ← A.orbE par (A.pqe U).toUccAlg hf
      let r ← pqeSolve o so par X O orbE (A.pqe U) dets
      let C ← ({ A.pqe U with tamps := r.1 } : PqeAlg).buildUvqc o so none
      pure ({ A.pqe U with tamps := r.1 }, dets, r.2, C.getNumCnots)) := by
  unfold uccnpqeRun
  rw [if_neg (not_not.2 hp), hU, except_ok_bind]

/-- the energies of the orbitals are unchanged -/
theorem orbE_shift (A : AlgObj) (hO : Occ A.ref) (hne : A.ref ≠ []) (hl : A.ref.length = A.nqb) (hb : buildRefprep A.ref = .ok A.refprep)
    (hH : ∀ t ∈ A.ham, t.2.Fits A.nqb ∧ ∀ g ∈ t.2, ExactGate g) {c : ℝ} {ham' : QubitOperator} (hs : OpShift A.nqb c A.ham ham') (U U' : UccAlg) (h1 : U.nqb = A.nqb)
    (h2 : U'.nqb = A.nqb) (h3 : U.ham = A.ham) (h4 : U'.ham = ham') (hf : Option (List ℝ)) : ({ A with ham := ham' } : AlgObj).orbE none U' hf = A.orbE none U hf := by
  unfold AlgObj.orbE
  have key : Moments.buildOrbEnergies none (({ A with ham := ham' } : AlgObj).pqe U') hf = Moments.buildOrbEnergies none (A.pqe U) hf := by
    unfold Moments.buildOrbEnergies
    cases hf with
    | some l => rfl
    | none =>
      obtain ⟨C, idx, q, c1, -, c3, c4, c5, c6, -⟩ := C43_prepares A.ref hO hne A.nqb (le_of_eq hl)
      rw [hb] at c1; cases c1
      have hw : q.WF := (applyCircuit_wf (Computer.WF.init A.nqb) c3).1
      have nrm : ∀ I < 2 ^ A.nqb, inner A.nqb (Pi.single I 1 : St) (Pi.single I 1) = 1 := fun I h => inner_det_self h
      have hlt : idx < 2 ^ A.nqb := by rw [← hl]; exact c6
      obtain ⟨v0, r1, r2, d1, d2⟩ := directOp_shift hw (by rw [c4]; exact hs) (by rw [c4]; exact hH) (by rw [c5, c4]; exact nrm _ hlt)
      have x1 : (Computer.init (A.pqe U).nqb).applyCircuit (A.pqe U).refprep = .ok q := by
        show (Computer.init U.nqb).applyCircuit A.refprep = .ok q
        rw [h1]; exact c3
      have x2 : (Computer.init (({ A with ham := ham' } : AlgObj).pqe U').nqb).applyCircuit (({ A with ham := ham' } : AlgObj).pqe U').refprep = .ok q := by
        show (Computer.init U'.nqb).applyCircuit A.refprep = .ok q
        rw [h2]; exact c3
      have y1 : (A.pqe U).ham = A.ham := h3
      have y2 : (({ A with ham := ham' } : AlgObj).pqe U').ham = ham' := h4
      have z1 : (A.pqe U).nqb = A.nqb := h1
      have z2 : (({ A with ham := ham' } : AlgObj).pqe U').nqb = A.nqb := h2
      simp only [x1, x2, y1, y2, except_ok_bind, d1, d2]
      rw [z1, z2]
      refine mapM_same fun i hi => ?_
      replace hi := List.mem_range.1 hi
      have hg := (pauliGate_X i).exact
      obtain ⟨q1, e1, w1, n1, p1⟩ := applyGate_exact (g := gX i) hw (by rw [c4]; exact hi) (by rw [c4]; exact hi) hg
      have hp1 : q1.psi = Pi.single (flipBit idx i) 1 := by rw [p1, c5, op_gX, opX_single]
      obtain ⟨v, s1, s2, f1, f2⟩ := directOp_shift w1 (by rw [n1, c4]; exact hs) (by rw [n1, c4]; exact hH) (by
        rw [hp1, n1, c4]; exact nrm _ ((flipBit_lt hi).2 hlt))
      simp only [make_X, except_ok_bind, e1, f1, f2]
      show (pure _ : Except Exc ℂ) = pure _
      congr 1
      show (if i < A.ref.sum then _ else _) = if i < A.ref.sum then _ else _
      split_ifs <;> ring
  rw [key]

/-- scipy sees the residuals only through the function it minimises and the starting point -/
def SeesResiduals (o : DescSort) (so : SortOracle) (X : UccRunExt) : Prop := ∀ (B : PqeAlg) (H : QubitOperator) (dets : List (ℕ × ℂ)),
  (∀ ts, ({ B with ham := H } : PqeAlg).residualVector o so dets ts = B.residualVector o so dets ts) → X.minimizeRes { B with ham := H } dets = X.minimizeRes B dets

/-- C120: a run of `UCCNPQE` with a constant added to the Hamiltonian ends with the same amplitudes, and its energy is shifted by the constant. -/
theorem C120_pqe (N : SQOpPool.NextPerm) (o : DescSort) (so : SortOracle) (fuel : ℕ) (X : UccRunExt) (hX : SeesResiduals o so X) (O : UccRunOpts) (cls : AlgClass) (S : QSystem) (a : AlgArgs)
    (A : AlgObj) (h : ansatzInit cls S a = .ok A) (hs : ArgsSound S a A.nqb) (hc : a.compact = false) (hN : 1 ≤ a.trotterNumber) (t : PoolArg)
    (hf : Option (List ℝ)) (keys : List (List ℕ × List ℕ)) (hk : ∀ x ∈ keys, Excit A.nqb x.1 x.2 ∧ x.1.length ≤ 19 ∧ ParticleHole A.ref x.1 x.2)
    (hO : Occ A.ref) (h0 : A.ref ≠ []) (h64 : A.nqb ≤ 64) (R : ℕ) (hR : IsRefDet A.ref R)
    (hstart : startAnsatz N o fuel A a t = .ok (A.startOf a keys)) {c : ℝ} {ham' : QubitOperator} (hsh : OpShift A.nqb c A.ham ham') :
    uccnpqeRun N o so none fuel X O { A with ham := ham' } a t hf =
      (uccnpqeRun N o so none fuel X O A a t hf).map fun r => ({ r.1 with ham := ham' }, r.2.1, r.2.2.1 + c, r.2.2.2) := by
  by_cases hp : a.statePrep = "occupation_list"
  swap
  · unfold uccnpqeRun
    rw [if_pos hp, if_pos hp]; rfl
  have hstart' : startAnsatz N o fuel { A with ham := ham' } a t = .ok { A.startOf a keys with ham := ham' } := by
    unfold startAnsatz at hstart ⊢
    have e : ({ A with ham := ham' } : AlgObj).fillPool N o fuel t = A.fillPool N o fuel t := rfl
    rw [e]
    obtain ⟨P, k1, k2⟩ := bindOk hstart
    obtain ⟨⟨l, P'⟩, k3, k4⟩ := bindOk k2
    rw [k1, except_ok_bind, k3, except_ok_bind]
    rw [← Except.ok.inj k4]
    rfl
  rw [uccnpqeRun_eq N o so none fuel X O A a t hf hp hstart, uccnpqeRun_eq N o so none fuel X O { A with ham := ham' } a t hf hp hstart']
  have hpool := pqePool h hO h0 h64 hk (A.startOf a keys).tamps
  obtain ⟨dets, d1, d2⟩ := C73_excited_dets o (A.pqe (A.startOf a keys)) keys hpool R hR
  have d1' : (({ A with ham := ham' } : AlgObj).pqe { A.startOf a keys with ham := ham' }).fillExcitedDets o = .ok dets := d1
  rw [d1', d1, except_ok_bind, except_ok_bind]
  have hk' : ∀ x ∈ keys, Excit A.nqb x.1 x.2 ∧ x.1.length ≤ 19 := fun x hx => ⟨(hk x hx).1, (hk x hx).2.1⟩
  have hready : (A.startOf a keys).Ready := startOf_ready h hs keys (A.startOf a keys).tamps
  have hsel : (A.startOf a keys).Selects keys := startOf_selects a hk'
  have hE := exactAnsatz o so (A.startOf a keys) keys hsel rfl hc hN
  have hn : A.nqb = A.ref.length := (C96_ready cls S a A h hs t {} [] []).2.1
  have href : (A.startOf a keys).reference = Pi.single R 1 := startOf_reference h hp hO hR keys (A.startOf a keys).tamps
  have hlt : R < 2 ^ A.nqb := hn ▸ refDet_lt hR
  have hone : inner A.nqb (A.startOf a keys).reference (A.startOf a keys).reference = 1 := by rw [href]; exact inner_det_self hlt
  have hcomp := (pqe_computer h hp).1
  have hd : ∀ d ∈ dets, d.1 < 2 ^ A.nqb ∧ d.1 ≠ R := by
    intro d hd
    obtain ⟨x, hx, e1, e2, -, e4⟩ := (List.forall₂_iff_get.1 d2 |> fun h => by
      obtain ⟨i, hi, rfl⟩ := List.mem_iff_getElem.1 hd
      have hl := h.1
      exact ⟨keys[i]'(by omega), List.getElem_mem _, h.2 i (by omega) hi⟩ : ∃ x, x ∈ keys ∧ Excites A.nqb a.qubitExc R x d)
    refine ⟨e2, fun hdR => ?_⟩
    obtain ⟨k, hK, hanti⟩ := kappa_skew a.qubitExc x.1 x.2
    have v := congrFun e4 R
    rw [hK, hdR] at v
    simp only [Pi.smul_apply, Pi.single_eq_same, smul_eq_mul, mul_one] at v
    have z : (k R : ℂ) * (Pi.single R 1 : St) (R ^^^ lmask (caList x.1 x.2)) = 0 := by
      by_cases hm : R ^^^ lmask (caList x.1 x.2) = R
      · have := hanti R
        rw [hm] at this
        have : k R = 0 := by linarith
        rw [this]; simp
      · rw [Pi.single_eq_of_ne (M := fun _ => ℂ) hm, mul_zero]
    rw [z] at v
    rcases e1 with e | e <;> rw [e] at v <;> norm_num at v
  have hres := fun ts => C120_residual o so (A.pqe (A.startOf a keys)) hE hready hcomp href hd hsh ts
  have hen := fun ts => C120_energy o so (A.startOf a keys) hE hready hone hsh ts
  have hen' : ∀ ts, ({ A.startOf a keys with ham := ham' } : UccAlg).energyFeval o so none ts = ((A.startOf a keys).energyFeval o so none ts).map (· + c) := by
    intro ts
    obtain ⟨e, a1, a2⟩ := hen ts
    rw [a1]
    exact a2
  have horb := orbE_shift A hO h0 hn.symm hpool.prep hready.ham hsh (A.startOf a keys) { A.startOf a keys with ham := ham' } rfl rfl rfl rfl hf
  have horb' : ({ A with ham := ham' } : AlgObj).orbE none (({ A with ham := ham' } : AlgObj).pqe { A.startOf a keys with ham := ham' }).toUccAlg hf =
      A.orbE none (A.pqe (A.startOf a keys)).toUccAlg hf := horb
  rw [horb']
  cases A.orbE none (A.pqe (A.startOf a keys)).toUccAlg hf with
  | error e => rfl
  | ok orbE =>
    rw [except_ok_bind, except_ok_bind]
    have hsolve : pqeSolve o so none X O orbE (({ A with ham := ham' } : AlgObj).pqe { A.startOf a keys with ham := ham' }) dets =
        (pqeSolve o so none X O orbE (A.pqe (A.startOf a keys)) dets).map fun r => (r.1, r.2 + c) := by
      unfold pqeSolve
      by_cases hj : pyLower O.optimizer = "jacobi"
      · rw [if_pos hj, if_pos hj]
        have := C120_jacobi (pqeJacobiEnv o so none X O orbE (A.pqe (A.startOf a keys)) dets)
          (pqeJacobiEnv o so none X O orbE (({ A with ham := ham' } : AlgObj).pqe { A.startOf a keys with ham := ham' }) dets) c hen'
          (fun ts => congrArg (Except.map fun r : List ℂ => r.map Complex.re) (hres ts)) (fun r => rfl) rfl rfl rfl rfl (A.pqe (A.startOf a keys)).tamps
        have e : (({ A with ham := ham' } : AlgObj).pqe { A.startOf a keys with ham := ham' }).tamps = (A.pqe (A.startOf a keys)).tamps := rfl
        rw [e, this]
        cases jacobiSolver (pqeJacobiEnv o so none X O orbE (A.pqe (A.startOf a keys)) dets) (A.pqe (A.startOf a keys)).tamps <;> rfl
      · rw [if_neg hj, if_neg hj]
        by_cases ho : pyLower O.optimizer ∈ ["nelder-mead", "powell", "bfgs", "l-bfgs-b", "cg", "slsqp"]
        swap
        · rw [if_neg ho, if_neg ho]; rfl
        rw [if_pos ho, if_pos ho]
        have g1 : (({ A with ham := ham' } : AlgObj).pqe { A.startOf a keys with ham := ham' }).energyFeval o so none
            (({ A with ham := ham' } : AlgObj).pqe { A.startOf a keys with ham := ham' }).tamps =
            ((A.pqe (A.startOf a keys)).energyFeval o so none (A.pqe (A.startOf a keys)).tamps).map (· + c) := hen' _
        have g2 : X.minimizeRes (({ A with ham := ham' } : AlgObj).pqe { A.startOf a keys with ham := ham' }) dets = X.minimizeRes (A.pqe (A.startOf a keys)) dets :=
          hX (A.pqe (A.startOf a keys)) ham' dets hres
        have g3 : ∀ x, (({ A with ham := ham' } : AlgObj).pqe { A.startOf a keys with ham := ham' }).energyFeval o so none x =
            ((A.pqe (A.startOf a keys)).energyFeval o so none x).map (· + c) := hen'
        rw [g1, g2]
        cases (A.pqe (A.startOf a keys)).energyFeval o so none (A.pqe (A.startOf a keys)).tamps with
        | error e => rfl
        | ok e =>
          simp only [Except.map, except_ok_bind]
          cases X.minimizeRes (A.pqe (A.startOf a keys)) dets with
          | error e => rfl
          | ok x =>
            simp only [except_ok_bind]
            rw [g3]
            cases (A.pqe (A.startOf a keys)).energyFeval o so none x <;> rfl
    rw [hsolve]
    cases pqeSolve o so none X O orbE (A.pqe (A.startOf a keys)) dets with
    | error e => rfl
    | ok r =>
      obtain ⟨x, e⟩ := r
      simp only [Except.map, except_ok_bind]
      have hb : ({ ({ A with ham := ham' } : AlgObj).pqe { A.startOf a keys with ham := ham' } with tamps := x } : PqeAlg).buildUvqc o so none =
        ({ A.pqe (A.startOf a keys) with tamps := x } : PqeAlg).buildUvqc o so none := rfl
      rw [hb]
      cases ({ A.pqe (A.startOf a keys) with tamps := x } : PqeAlg).buildUvqc o so none <;> rfl

end QF
