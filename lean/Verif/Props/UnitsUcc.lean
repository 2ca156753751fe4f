import Verif.Props.UnitsKrylov
/-!
C121 for the unitary coupled cluster algorithms and for the steps of QITE.
-/
namespace QF
open SQOperator (DescSort)
open QubitOperator (SortOracle)

theorem scaled_exact {H : QubitOperator} (a : ℂ) {n : ℕ} (hH : ∀ t ∈ H, t.2.Fits n ∧ ∀ g ∈ t.2, ExactGate g) : ∀ t ∈ H.multCoeffs a, t.2.Fits n ∧ ∀ g ∈ t.2, ExactGate g := by
  intro t ht
  obtain ⟨s, hs, rfl⟩ := List.mem_map.1 ht
  exact hH s hs

theorem inner_scale (n : ℕ) {H H' : Op} {a : ℝ} (hs : H' = (a : ℂ) • H) (φ ψ : St) : inner n φ (H' ψ) = a * inner n φ (H ψ) := by
  rw [hs, LinearMap.smul_apply, inner_smul_right]

theorem energy_scale (n : ℕ) {H H' : Op} {a : ℝ} (hs : H' = (a : ℂ) • H) (ψ : St) : energy n H' ψ = a * energy n H ψ := by
  unfold energy
  rw [inner_scale n hs, Complex.re_ofReal_mul]

theorem hermitian_scale {n : ℕ} {H H' : Op} {a : ℝ} (hs : H' = (a : ℂ) • H) (h : HermitianOn n H) : HermitianOn n H' := by
  intro φ ψ
  rw [inner_scale n hs, h, hs, LinearMap.smul_apply, inner_smul_left', Complex.conj_ofReal]

/-- C121: `energy_feval` at all amplitudes scales with the unit -/
theorem C121_energy (o : DescSort) (so : SortOracle) (A : UccAlg) (hE : A.ExactAnsatz o so) (hR : A.Ready) (a : ℝ) (ts : List ℝ) :
    ∃ e, A.energyFeval o so none ts = .ok e ∧ (A.withHam (A.ham.multCoeffs (a : ℂ))).energyFeval o so none ts = .ok (a * e) := by
  obtain ⟨C, c1, c2, c3⟩ := hE ts
  obtain ⟨U, q, e1, e2, w, n, p⟩ := build_of_ansatz o so A ts hR c1 rfl (fun g hg => (c2 g hg).2) c3
  obtain ⟨q1, d1, -⟩ := C29_direct_op q A.ham w (by rw [n]; exact hR.ham)
  obtain ⟨q2, d2, -⟩ := C29_direct_op q (A.ham.multCoeffs (a : ℂ)) w (scaled_exact _ (by rw [n]; exact hR.ham))
  rw [inner_scale _ (scaled_op _ a)] at d2
  refine ⟨(inner q.nqubit q.psi (A.ham.op q.psi)).re, ?_, ?_⟩
  · unfold UccAlg.energyFeval UccAlg.measureEnergy
    rw [e1, except_ok_bind, Option.getD_some, e2, except_ok_bind, d1, except_ok_bind]
    rfl
  · have e1' : (A.withHam (A.ham.multCoeffs (a : ℂ))).buildUvqc o so (some ts) = .ok U := e1
    have e2' : (A.withHam (A.ham.multCoeffs (a : ℂ))).initialComputer.applyCircuit U = .ok q := e2
    have d2' : q.directOpExpVal none (A.withHam (A.ham.multCoeffs (a : ℂ))).ham = .ok (a * inner q.nqubit q.psi (A.ham.op q.psi), q2) := d2
    unfold UccAlg.energyFeval UccAlg.measureEnergy
    rw [e1', except_ok_bind, Option.getD_some, e2', except_ok_bind, d2', except_ok_bind]
    simp [pure, Except.pure]

theorem mapM_scale {α : Type} {f f' : α → Except Exc ℂ} {a : ℂ} (l : List α) (h : ∀ d ∈ l, f' d = (f d).map (a * ·)) :
    l.mapM f' = (l.mapM f).map (List.map (a * ·)) := by
  induction l with
  | nil => rfl
  | cons d l ih =>
    rw [List.mapM_cons, List.mapM_cons, h d (by simp), ih fun x hx => h x (by simp [hx])]
    cases f d with
    | error e => rfl
    | ok z =>
      cases l.mapM f with
      | error e => rfl
      | ok zs => rfl

/-- C121: `get_residual_vector` at all amplitudes scales with the unit -/
theorem C121_residual (o : DescSort) (so : SortOracle) (A : PqeAlg) (hE : A.ExactAnsatz o so) (hR : A.Ready)
    {dets : List (ℕ × ℂ)} (hd : ∀ d ∈ dets, d.1 < 2 ^ A.nqb) {a : ℝ} (ha : 0 < a) (ts : List ℝ) :
    ({ A with ham := A.ham.multCoeffs (a : ℂ) } : PqeAlg).residualVector o so dets ts = (A.residualVector o so dets ts).map (List.map ((a : ℂ) * ·)) := by
  classical
  by_cases hsa : A.saSD = true
  · unfold PqeAlg.residualVector
    rw [if_pos hsa]
    have : ({ A with ham := A.ham.multCoeffs (a : ℂ) } : PqeAlg).saSD = true := hsa
    rw [if_pos this]
    rfl
  have hsa' : ¬ ({ A with ham := A.ham.multCoeffs (a : ℂ) } : PqeAlg).saSD = true := hsa
  obtain ⟨C, h1, h3, h4⟩ := hE ts
  obtain ⟨q1, e1, w1, n1, p1⟩ := applyCircuit_exact (q := Computer.init A.nqb) A.uprep (Computer.WF.init _) hR.prep.1 hR.prep.2
  obtain ⟨q2, e2, w2, n2, p2⟩ := applyCircuit_exact (q := q1) C w1 (by rw [n1]; exact h4) (fun g hg => (h3 g hg).2)
  have hn2 : q2.nqubit = A.nqb := n2.trans n1
  obtain ⟨q3, e3, w3, n3, p3⟩ := C24_apply_operator q2 A.ham w2 (by rw [hn2]; exact hR.ham)
  have hn3 : q3.nqubit = A.nqb := n3.trans hn2
  obtain ⟨q4, e4, w4, n4, p4⟩ := applyCircuit_exact (q := q3) C.adjoint w3 (by rw [hn3]; exact adj_fits h4) (adjoint_exact h3)
  have hn4 : q4.nqubit = A.nqb := n4.trans hn3
  obtain ⟨r3, f3, v3, m3, s3⟩ := C24_apply_operator q2 (A.ham.multCoeffs (a : ℂ)) w2 (by rw [hn2]; exact scaled_exact _ hR.ham)
  have hm3 : r3.nqubit = A.nqb := m3.trans hn2
  obtain ⟨r4, f4, v4, m4, s4⟩ := applyCircuit_exact (q := r3) C.adjoint v3 (by rw [hm3]; exact adj_fits h4) (adjoint_exact h3)
  have hm4 : r4.nqubit = A.nqb := m4.trans hm3
  have hpsi : r4.psi = (a : ℂ) • q4.psi := by rw [s4, s3, scaled_op, LinearMap.smul_apply, map_smul, ← p3, ← p4]
  have hU' : ({ A with ham := A.ham.multCoeffs (a : ℂ) } : PqeAlg).ansatzCircuit o so (some ts) = .ok C := h1
  have f3' : q2.applyOperator ({ A with ham := A.ham.multCoeffs (a : ℂ) } : PqeAlg).ham = .ok r3 := f3
  unfold PqeAlg.residualVector
  rw [if_neg hsa, if_neg hsa', h1, hU', except_ok_bind, except_ok_bind, e1, except_ok_bind, except_ok_bind, e2, except_ok_bind, except_ok_bind, e3, except_ok_bind,
    f3', except_ok_bind, e4, except_ok_bind, f4, except_ok_bind]
  have hget : ∀ (q : Computer), q.WF → q.nqubit = A.nqb → ∀ J, J < 2 ^ A.nqb → pyIndex q.coeff J = .ok (q.psi J) := by
    intro q w hn J hJ
    have hlen : J < q.coeff.length := by rw [w.len, hn]; exact hJ
    refine pyIndex_ok ?_
    rw [List.getElem?_eq_getElem hlen]
    simp only [Computer.psi, vec, List.getD_eq_getElem _ _ hlen]
  refine mapM_scale dets fun d hdm => ?_
  rw [hget r4 v4 hm4 _ (hd d hdm), hget q4 w4 hn4 _ (hd d hdm), except_ok_bind, except_ok_bind, hpsi]
  have e : ((a : ℂ) • q4.psi) d.1 * d.2 = a * (q4.psi d.1 * d.2) := by rw [Pi.smul_apply, smul_eq_mul, mul_assoc]
  simp only [e]
  have hz : (((a : ℂ) * (q4.psi d.1 * d.2)).im ≠ 0) ↔ (q4.psi d.1 * d.2).im ≠ 0 := by
    rw [Complex.im_ofReal_mul]
    simp [ha.ne']
  by_cases hi : (q4.psi d.1 * d.2).im ≠ 0
  · rw [if_pos hi, if_pos (hz.2 hi)]; rfl
  · rw [if_neg hi, if_neg (fun h => hi (hz.1 h))]; rfl

theorem pyIndex_scale (l : List ℝ) (a : ℝ) (i : ℕ) : pyIndex (l.map (a * ·)) i = (pyIndex l i).map (a * ·) := by
  unfold pyIndex
  rw [List.getElem?_map]
  cases l[i]? <;> rfl

theorem mapM_index_scale (l : List ℝ) (a : ℝ) (is : List ℕ) : is.mapM (pyIndex (l.map (a * ·))) = (is.mapM (pyIndex l)).map (List.map (a * ·)) := by
  induction is with
  | nil => rfl
  | cons i is ih =>
    rw [List.mapM_cons, List.mapM_cons, ih, pyIndex_scale]
    cases pyIndex l i with
    | error e => rfl
    | ok z =>
      cases is.mapM (pyIndex l) with
      | error e => rfl
      | ok zs => rfl

/-- C121: the update of the amplitudes, residual over energy difference, does not depend on the unit -/
theorem C121_update (A : PqeAlg) (orbE res : List ℝ) {a : ℝ} (ha : a ≠ 0) : A.resOverMpdenom (orbE.map (a * ·)) (res.map (a * ·)) = A.resOverMpdenom orbE res := by
  unfold PqeAlg.resOverMpdenom
  congr 1
  funext m
  cases A.poolAt m.1 with
  | error e => rfl
  | ok e =>
    rw [except_ok_bind, except_ok_bind]
    cases PqeAlg.exciteLists A.ref e.2 with
    | error e => rfl
    | ok ca =>
      obtain ⟨cre, ann⟩ := ca
      rw [except_ok_bind, except_ok_bind]
      simp only [mapM_index_scale, pyIndex_scale]
      cases ann.mapM (pyIndex orbE) with
      | error e => rfl
      | ok ea =>
        cases cre.mapM (pyIndex orbE) with
        | error e => rfl
        | ok ec =>
          cases pyIndex res m.2 with
          | error e => rfl
          | ok r =>
            show Except.ok _ = Except.ok _
            rw [List.sum_map_mul_left, List.sum_map_mul_left, List.map_id', List.map_id', ← mul_sub, mul_div_mul_left _ _ ha]

/-- C121: `measure_gradient` scales with the unit -/
theorem C121_gradient (o : DescSort) (so : SortOracle) (A : UccAlg) (xs : List (List ℕ × List ℕ)) (h : A.Selects xs) (hs : A.saSD = false)
    (hc : A.compact = false) (hN : A.trotterNumber = 1) (hz : A.UnitCoeffs) (ts : List ℝ) (hr : ∀ p ∈ List.zip ts xs, AmpResolved p.2 p.1)
    (hR : A.Ready) (hH : HermitianOn A.nqb A.ham.op) (h1 : ts.length = A.tops.length) (h2 : A.tamps.length = A.tops.length) (h3 : A.tops ≠ []) (a : ℝ) :
    ∃ g, A.measureGradient o so (some ts) = .ok g ∧ (A.withHam (A.ham.multCoeffs (a : ℂ))).measureGradient o so (some ts) = .ok (g.map (a * ·)) := by
  obtain ⟨Vs, hV⟩ := flows_exist A.qubitExc xs
  obtain ⟨g, a1, a2, a3⟩ := C71_gradient o so A xs h hs hc hN hz ts hr Vs hV hR hH h1 h2 h3
  obtain ⟨g', b1, b2, b3⟩ := C71_gradient o so (A.withHam (A.ham.multCoeffs (a : ℂ))) xs h hs hc hN hz ts hr Vs hV ⟨hR.wf, hR.size, hR.prep, scaled_exact _ hR.ham⟩
    (hermitian_scale (scaled_op _ a) hH) h1 h2 h3
  refine ⟨g, a1, ?_⟩
  rw [b1]
  congr 1
  refine List.ext_getElem (by rw [List.length_map, a2, b2]) fun j hj hj' => ?_
  have hjg : j < g.length := by simpa using hj'
  have d1 := a3 j (by omega) hjg
  have d2 : HasDerivAt (fun s => uccEnergy A.nqb (A.ham.multCoeffs (a : ℂ)).op A.reference Vs (ts.set j s)) g'[j] (ts[j]'(by omega)) := b3 j (by omega) hj
  have d3 := d1.const_mul a
  have hE : ∀ us, uccEnergy A.nqb (A.ham.multCoeffs (a : ℂ)).op A.reference Vs us = a * uccEnergy A.nqb A.ham.op A.reference Vs us := fun us => by
    unfold uccEnergy
    rw [energy_scale _ (scaled_op _ a)]
  simp only [hE] at d2
  rw [List.getElem_map]
  exact d2.unique d3

theorem comm_scale (H K : Op) (z : ℂ) : (z • H) * K - K * (z • H) = z • (H * K - K * H) := by
  rw [smul_mul_assoc, mul_smul_comm, smul_sub]

/-- C121: the gradients with respect to the pool operators scale with the unit -/
theorem C121_pool_gradient (o : DescSort) (so : SortOracle) (A : UccAlg) (hR : A.Ready) (U : Circuit) (hU : A.buildUvqc o so = .ok U) (hf : U.Fits A.nqb)
    (hg : ∀ g ∈ U, ExactGate g) (hH : HermitianOn A.nqb A.ham.op)
    (hp : ∀ e ∈ A.pool, ∃ c a, e.2 = excTerms c a ∧ Excit A.nqb c a ∧ c.length ≤ 19 ∧ e.1.im = 0) (a : ℝ) :
    ∃ g, A.measureGradient3 o so = .ok g ∧ (A.withHam (A.ham.multCoeffs (a : ℂ))).measureGradient3 o so = .ok (g.map (a * ·)) := by
  obtain ⟨g, a1, a2⟩ := C72_excitations o so A hR U hU hf hg hH hp
  obtain ⟨g', b1, b2⟩ := C72_excitations o so (A.withHam (A.ham.multCoeffs (a : ℂ))) ⟨hR.wf, hR.size, hR.prep, scaled_exact _ hR.ham⟩ U hU hf hg (hermitian_scale (scaled_op _ a) hH) hp
  refine ⟨g, a1, ?_⟩
  rw [b1]
  congr 1
  have hp' : (A.withHam (A.ham.multCoeffs (a : ℂ))).pool = A.pool := rfl
  rw [hp'] at b2
  clear a1 b1 hp'
  generalize A.pool = l at a2 b2 hp
  induction l generalizing g g' with
  | nil => cases a2; cases b2; rfl
  | cons e l ih =>
    rw [List.forall₂_cons_left_iff] at a2 b2
    obtain ⟨x, u, h1, h2, rfl⟩ := a2
    obtain ⟨x', u', h1', h2', rfl⟩ := b2
    obtain ⟨cc, aa, e1, e2, -, -⟩ := hp e (by simp)
    have k1 := (h1 cc aa e1 e2).1
    have k2 := (h1' cc aa e1 e2).1
    rw [ih u u' h2 h2' (fun y hy => hp y (by simp [hy])), List.map_cons]
    congr 1
    have : (x' : ℂ) = a * x := by
      rw [k1, k2]
      show inner A.nqb _ (((A.ham.multCoeffs (a : ℂ)).op * _ - _ * (A.ham.multCoeffs (a : ℂ)).op) _) = _
      rw [scaled_op]
      exact inner_scale A.nqb (comm_scale _ _ _) _ _
    exact_mod_cast this

end QF
