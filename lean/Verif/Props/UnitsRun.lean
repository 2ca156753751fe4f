import Verif.Props.UnitsUcc
import Verif.Props.ZeroExample
/-!
C121 for whole runs of UCCNPQE with the Jacobi solver.
-/
namespace QF
open SQOperator (DescSort)
open QubitOperator (SortOracle)

theorem npNorm_scale {a : ℝ} (ha : 0 < a) (r : List ℝ) : npNorm (r.map (a * ·)) = a * npNorm r := by
  unfold npNorm
  have : ((r.map (a * ·)).map fun x => x ^ 2).sum = a ^ 2 * (r.map fun x => x ^ 2).sum := by
    rw [List.map_map, ← List.sum_map_mul_left]
    congr 1
    exact List.map_congr_left fun x _ => by simp only [Function.comp]; ring
  rw [this, Real.sqrt_mul (by positivity), Real.sqrt_sq ha.le]

/-- C121: the Jacobi solver in other units (threshold included) takes the same steps -/
theorem C121_jacobi (J : JacobiEnv) (J' : JacobiEnv) {a : ℝ} (ha : 0 < a) (he : ∀ ts, J'.energy ts = (J.energy ts).map (a * ·))
    (hr : ∀ ts, J'.residual ts = (J.residual ts).map (List.map (a * ·))) (hp : ∀ r, J'.precond (r.map (a * ·)) = J.precond r) (h1 : J'.maxIter = J.maxIter) (h2 : J'.thresh = a * J.thresh) (h3 : J'.diisMaxDim = J.diisMaxDim) (h4 : J'.lstsq = J.lstsq)
    (ts : List ℝ) : jacobiSolver J' ts = (jacobiSolver J ts).map fun r => (r.1, a * r.2.1, r.2.2) := by
  have step : ∀ s s' : JacobiState, s.tamps = s'.tamps → s.tDiis = s'.tDiis → s.eDiis = s'.eDiis →
      jacobiStep J' s' = (jacobiStep J s).map fun z => { z with energy := a * z.energy, norm := a * z.norm } := by
    intro s s' e1 e2 e3
    unfold jacobiStep
    rw [hr, ← e1, ← e2, ← e3, h3, h4]
    cases J.residual s.tamps with
    | error e => rfl
    | ok r =>
      simp only [Except.map, except_ok_bind, hp, npNorm_scale ha]
      cases J.precond r with
      | error e => rfl
      | ok u =>
        simp only [except_ok_bind]
        cases npAdd s.tamps u with
        | error e => rfl
        | ok t =>
          simp only [except_ok_bind]
          cases npSub t s.tamps with
          | error e => rfl
          | ok e =>
            simp only [except_ok_bind]
            split_ifs
            · cases diis J.lstsq J.diisMaxDim (s.tDiis ++ [t]) (s.eDiis ++ [e]) with
              | error e => rfl
              | ok d =>
                obtain ⟨t', td, ed⟩ := d
                simp only [except_ok_bind, he]
                cases J.energy t' <;> rfl
            · simp only [pure_bind, he]
              cases J.energy t <;> rfl
  have loop : ∀ (fuel k : ℕ) (s s' : JacobiState), s'.tamps = s.tamps → s'.tDiis = s.tDiis → s'.eDiis = s.eDiis → s'.energy = a * s.energy →
      (jacobiLoop J' fuel k s').map (fun z => (z.1.tamps, z.1.energy, z.2)) = (jacobiLoop J fuel k s).map fun z => (z.1.tamps, a * z.1.energy, z.2) := by
    intro fuel
    induction fuel with
    | zero =>
      intro k s s' e1 e2 e3 e4
      simp only [jacobiLoop, Except.map, e1, e4]
    | succ fuel ih =>
      intro k s s' e1 e2 e3 e4
      rw [jacobiLoop, jacobiLoop, step s s' e1.symm e2.symm e3.symm]
      cases jacobiStep J s with
      | error e => rfl
      | ok z =>
        simp only [Except.map, except_ok_bind, h2]
        have hiff : a * z.norm < a * J.thresh ↔ z.norm < J.thresh := mul_lt_mul_iff_right₀ ha
        by_cases hn : z.norm < J.thresh
        · rw [if_pos hn, if_pos (hiff.2 hn)]
        · rw [if_neg hn, if_neg (fun h => hn (hiff.1 h))]
          exact ih (k + 1) z { z with energy := a * z.energy, norm := a * z.norm } rfl rfl rfl rfl
  unfold jacobiSolver
  rw [he]
  cases J.energy ts with
  | error e => rfl
  | ok E =>
    simp only [Except.map, except_ok_bind, h1]
    by_cases hm : J.maxIter = 0
    · rw [if_pos hm, if_pos hm]
    · rw [if_neg hm, if_neg hm]
      have := loop J.maxIter 0 { tamps := ts, tDiis := [ts], eDiis := [], energy := E, norm := 0 } { tamps := ts, tDiis := [ts], eDiis := [], energy := a * E, norm := 0 }
        rfl rfl rfl rfl
      revert this
      cases jacobiLoop J J.maxIter 0 { tamps := ts, tDiis := [ts], eDiis := [], energy := E, norm := 0 } <;>
        cases jacobiLoop J' J.maxIter 0 { tamps := ts, tDiis := [ts], eDiis := [], energy := a * E, norm := 0 } <;> intro this <;>
          first | (cases this; rfl) | exact this

theorem directOp_scale {q : Computer} (w : q.WF) (a : ℝ) {H : QubitOperator} (hH : ∀ t ∈ H, t.2.Fits q.nqubit ∧ ∀ g ∈ t.2, ExactGate g) :
    ∃ v r1 r2, q.directOpExpVal none H = .ok (v, r1) ∧ q.directOpExpVal none (H.multCoeffs (a : ℂ)) = .ok ((a : ℂ) * v, r2) := by
  obtain ⟨q1, d1, -⟩ := C29_direct_op q H w hH
  obtain ⟨q2, d2, -⟩ := C29_direct_op q (H.multCoeffs (a : ℂ)) w (scaled_exact _ hH)
  rw [inner_scale _ (scaled_op _ a)] at d2
  exact ⟨_, _, _, d1, d2⟩

/-- the energies of the orbitals scale -/
theorem orbE_scale (A : AlgObj) (hO : Occ A.ref) (hne : A.ref ≠ []) (hl : A.ref.length = A.nqb) (hb : buildRefprep A.ref = .ok A.refprep)
    (hH : ∀ t ∈ A.ham, t.2.Fits A.nqb ∧ ∀ g ∈ t.2, ExactGate g) (a : ℝ) (U U' : UccAlg) (h1 : U.nqb = A.nqb)
    (h2 : U'.nqb = A.nqb) (h3 : U.ham = A.ham) (h4 : U'.ham = A.ham.multCoeffs (a : ℂ)) (hf : Option (List ℝ)) : ({ A with ham := A.ham.multCoeffs (a : ℂ) } : AlgObj).orbE none U' (hf.map (List.map (a * ·))) = (A.orbE none U hf).map (List.map (a * ·)) := by
  unfold AlgObj.orbE
  have key : Moments.buildOrbEnergies none (({ A with ham := A.ham.multCoeffs (a : ℂ) } : AlgObj).pqe U') (hf.map (List.map (a * ·))) =
      (Moments.buildOrbEnergies none (A.pqe U) hf).map (List.map ((a : ℂ) * ·)) := by
    unfold Moments.buildOrbEnergies
    cases hf with
    | some l =>
      show Except.ok _ = Except.ok _
      congr 1
      simp [List.flatMap_map, List.map_flatMap]
    | none =>
      obtain ⟨C, idx, q, c1, -, c3, c4, c5, c6, -⟩ := C43_prepares A.ref hO hne A.nqb (le_of_eq hl)
      rw [hb] at c1; cases c1
      have hw : q.WF := (applyCircuit_wf (Computer.WF.init A.nqb) c3).1
      have hlt : idx < 2 ^ A.nqb := by rw [← hl]; exact c6
      obtain ⟨v0, r1, r2, d1, d2⟩ := directOp_scale hw a (H := A.ham) (by rw [c4]; exact hH)
      have x1 : (Computer.init (A.pqe U).nqb).applyCircuit (A.pqe U).refprep = .ok q := by
        show (Computer.init U.nqb).applyCircuit A.refprep = .ok q
        rw [h1]; exact c3
      have x2 : (Computer.init (({ A with ham := A.ham.multCoeffs (a : ℂ) } : AlgObj).pqe U').nqb).applyCircuit (({ A with ham := A.ham.multCoeffs (a : ℂ) } : AlgObj).pqe U').refprep = .ok q := by
        show (Computer.init U'.nqb).applyCircuit A.refprep = .ok q
        rw [h2]; exact c3
      have y1 : (A.pqe U).ham = A.ham := h3
      have y2 : (({ A with ham := A.ham.multCoeffs (a : ℂ) } : AlgObj).pqe U').ham = A.ham.multCoeffs (a : ℂ) := h4
      have z1 : (A.pqe U).nqb = A.nqb := h1
      have z2 : (({ A with ham := A.ham.multCoeffs (a : ℂ) } : AlgObj).pqe U').nqb = A.nqb := h2
      simp only [x1, x2, y1, y2, except_ok_bind, d1, d2]
      rw [z1, z2]
      refine mapM_scale _ fun i hi => ?_
      replace hi := List.mem_range.1 hi
      have hg := (pauliGate_X i).exact
      obtain ⟨q1, e1, w1, n1, p1⟩ := applyGate_exact (g := gX i) hw (by rw [c4]; exact hi) (by rw [c4]; exact hi) hg
      have hp1 : q1.psi = Pi.single (flipBit idx i) 1 := by rw [p1, c5, op_gX, opX_single]
      obtain ⟨v, s1, s2, f1, f2⟩ := directOp_scale w1 a (H := A.ham) (by rw [n1, c4]; exact hH)
      simp only [make_X, except_ok_bind, e1, f1, f2]
      show (Except.ok _ : Except Exc ℂ) = Except.ok _
      congr 1
      show (if i < A.ref.sum then _ else _) = (a : ℂ) * if i < A.ref.sum then _ else _
      split_ifs <;> ring
  rw [key]
  cases Moments.buildOrbEnergies none (A.pqe U) hf with
  | error e => rfl
  | ok l =>
    show Except.ok _ = Except.ok _
    congr 1
    rw [List.map_map, List.map_map]
    exact List.map_congr_left fun z _ => by simp

/-- C121: a run of `UCCNPQE` with the Jacobi solver in other units, the convergence threshold and the given orbital energies included, ends with the same amplitudes,
determinants and CNOT count, and its energy is multiplied by the unit. -/
theorem C121_pqe (N : SQOpPool.NextPerm) (o : DescSort) (so : SortOracle) (fuel : ℕ) (X : UccRunExt) (O : UccRunOpts) (hj : pyLower O.optimizer = "jacobi") (cls : AlgClass) (S : QSystem)
    (a : AlgArgs) (A : AlgObj) (h : ansatzInit cls S a = .ok A) (hs : ArgsSound S a A.nqb) (hc : a.compact = false) (hN : 1 ≤ a.trotterNumber) (t : PoolArg)
    (hf : Option (List ℝ)) (keys : List (List ℕ × List ℕ)) (hk : ∀ x ∈ keys, Excit A.nqb x.1 x.2 ∧ x.1.length ≤ 19 ∧ ParticleHole A.ref x.1 x.2)
    (hO : Occ A.ref) (h0 : A.ref ≠ []) (h64 : A.nqb ≤ 64) (R : ℕ) (hR : IsRefDet A.ref R)
    (hstart : startAnsatz N o fuel A a t = .ok (A.startOf a keys)) {b : ℝ} (hb : 0 < b) :
    uccnpqeRun N o so none fuel X { O with optThresh := b * O.optThresh } { A with ham := A.ham.multCoeffs (b : ℂ) } a t (hf.map (List.map (b * ·))) =
      (uccnpqeRun N o so none fuel X O A a t hf).map fun r => ({ r.1 with ham := A.ham.multCoeffs (b : ℂ) }, r.2.1, b * r.2.2.1, r.2.2.2) := by
  by_cases hp : a.statePrep = "occupation_list"
  swap
  · unfold uccnpqeRun
    rw [if_pos hp, if_pos hp]; rfl
  have hstart' : startAnsatz N o fuel { A with ham := A.ham.multCoeffs (b : ℂ) } a t = .ok { A.startOf a keys with ham := A.ham.multCoeffs (b : ℂ) } := by
    unfold startAnsatz at hstart ⊢
    have e : ({ A with ham := A.ham.multCoeffs (b : ℂ) } : AlgObj).fillPool N o fuel t = A.fillPool N o fuel t := rfl
    rw [e]
    obtain ⟨P, k1, k2⟩ := bindOk hstart
    obtain ⟨⟨l, P'⟩, k3, k4⟩ := bindOk k2
    rw [k1, except_ok_bind, k3, except_ok_bind]
    rw [← Except.ok.inj k4]
    rfl
  rw [uccnpqeRun_eq N o so none fuel X O A a t hf hp hstart, uccnpqeRun_eq N o so none fuel X { O with optThresh := b * O.optThresh } { A with ham := A.ham.multCoeffs (b : ℂ) } a t (hf.map (List.map (b * ·))) hp hstart']
  have hpool := pqePool h hO h0 h64 hk (A.startOf a keys).tamps
  obtain ⟨dets, d1, d2⟩ := C73_excited_dets o (A.pqe (A.startOf a keys)) keys hpool R hR
  have d1' : (({ A with ham := A.ham.multCoeffs (b : ℂ) } : AlgObj).pqe { A.startOf a keys with ham := A.ham.multCoeffs (b : ℂ) }).fillExcitedDets o = .ok dets := d1
  rw [d1', d1, except_ok_bind, except_ok_bind]
  have hk' : ∀ x ∈ keys, Excit A.nqb x.1 x.2 ∧ x.1.length ≤ 19 := fun x hx => ⟨(hk x hx).1, (hk x hx).2.1⟩
  have hready : (A.startOf a keys).Ready := startOf_ready h hs keys (A.startOf a keys).tamps
  have hsel : (A.startOf a keys).Selects keys := startOf_selects a hk'
  have hE := exactAnsatz o so (A.startOf a keys) keys hsel rfl hc hN
  have hn : A.nqb = A.ref.length := (C96_ready cls S a A h hs t {} [] []).2.1
  have href : (A.startOf a keys).reference = Pi.single R 1 := startOf_reference h hp hO hR keys (A.startOf a keys).tamps
  have hlt : R < 2 ^ A.nqb := hn ▸ refDet_lt hR
  have hone : inner A.nqb (A.startOf a keys).reference (A.startOf a keys).reference = 1 := by rw [href]; exact inner_det_self hlt
  have hcomp := (pqe_computer h hp).1
  have hd : ∀ d ∈ dets, d.1 < 2 ^ A.nqb ∧ d.1 ≠ R := by
    intro d hd
    obtain ⟨x, hx, e1, e2, -, e4⟩ := (List.forall₂_iff_get.1 d2 |> fun h => by
      obtain ⟨i, hi, rfl⟩ := List.mem_iff_getElem.1 hd
      have hl := h.1
      exact ⟨keys[i]'(by omega), List.getElem_mem _, h.2 i (by omega) hi⟩ : ∃ x, x ∈ keys ∧ Excites A.nqb a.qubitExc R x d)
    refine ⟨e2, fun hdR => ?_⟩
    obtain ⟨k, hK, hanti⟩ := kappa_skew a.qubitExc x.1 x.2
    have v := congrFun e4 R
    rw [hK, hdR] at v
    simp only [Pi.smul_apply, Pi.single_eq_same, smul_eq_mul, mul_one] at v
    have z : (k R : ℂ) * (Pi.single R 1 : St) (R ^^^ lmask (caList x.1 x.2)) = 0 := by
      by_cases hm : R ^^^ lmask (caList x.1 x.2) = R
      · have := hanti R
        rw [hm] at this
        have : k R = 0 := by linarith
        rw [this]; simp
      · rw [Pi.single_eq_of_ne (M := fun _ => ℂ) hm, mul_zero]
    rw [z] at v
    rcases e1 with e | e <;> rw [e] at v <;> norm_num at v
  have hd' : ∀ d ∈ dets, d.1 < 2 ^ A.nqb := fun d hdm => (hd d hdm).1
  have hres := fun ts => C121_residual o so (A.pqe (A.startOf a keys)) hE hready hd' hb ts
  have hen : ∀ ts, ({ A.startOf a keys with ham := A.ham.multCoeffs (b : ℂ) } : UccAlg).energyFeval o so none ts = ((A.startOf a keys).energyFeval o so none ts).map (b * ·) := by
    intro ts
    obtain ⟨e, a1, a2⟩ := C121_energy o so (A.startOf a keys) hE hready b ts
    rw [a1]
    exact a2
  have horb := orbE_scale A hO h0 hn.symm hpool.prep hready.ham b (A.startOf a keys) { A.startOf a keys with ham := A.ham.multCoeffs (b : ℂ) } rfl rfl rfl rfl hf
  have horb' : ({ A with ham := A.ham.multCoeffs (b : ℂ) } : AlgObj).orbE none (({ A with ham := A.ham.multCoeffs (b : ℂ) } : AlgObj).pqe { A.startOf a keys with ham := A.ham.multCoeffs (b : ℂ) }).toUccAlg (hf.map (List.map (b * ·))) =
      (A.orbE none (A.pqe (A.startOf a keys)).toUccAlg hf).map (List.map (b * ·)) := horb
  rw [horb']
  cases A.orbE none (A.pqe (A.startOf a keys)).toUccAlg hf with
  | error e => rfl
  | ok orbE =>
    simp only [Except.map, except_ok_bind]
    have hsolve : pqeSolve o so none X { O with optThresh := b * O.optThresh } (orbE.map (b * ·)) (({ A with ham := A.ham.multCoeffs (b : ℂ) } : AlgObj).pqe { A.startOf a keys with ham := A.ham.multCoeffs (b : ℂ) }) dets =
        (pqeSolve o so none X O orbE (A.pqe (A.startOf a keys)) dets).map fun r => (r.1, b * r.2) := by
      unfold pqeSolve
      rw [if_pos hj, if_pos hj]
      have := C121_jacobi (pqeJacobiEnv o so none X O orbE (A.pqe (A.startOf a keys)) dets)
        (pqeJacobiEnv o so none X { O with optThresh := b * O.optThresh } (orbE.map (b * ·)) (({ A with ham := A.ham.multCoeffs (b : ℂ) } : AlgObj).pqe { A.startOf a keys with ham := A.ham.multCoeffs (b : ℂ) }) dets) hb hen
        (fun ts => by
          refine (congrArg (Except.map fun r : List ℂ => r.map Complex.re) (hres ts)).trans ?_
          show _ = Except.map (List.map (b * ·)) (Except.map (fun r : List ℂ => r.map Complex.re) (PqeAlg.residualVector o so (A.pqe (A.startOf a keys)) dets ts))
          cases PqeAlg.residualVector o so (A.pqe (A.startOf a keys)) dets ts with
          | error e => rfl
          | ok r =>
            show Except.ok _ = Except.ok _
            congr 1
            show (r.map ((b : ℂ) * ·)).map Complex.re = (r.map Complex.re).map (b * ·)
            rw [List.map_map, List.map_map]
            exact List.map_congr_left fun z _ => by simp)
        (fun r => C121_update (A.pqe (A.startOf a keys)) orbE r hb.ne') rfl rfl rfl rfl (A.pqe (A.startOf a keys)).tamps
      have e : (({ A with ham := A.ham.multCoeffs (b : ℂ) } : AlgObj).pqe { A.startOf a keys with ham := A.ham.multCoeffs (b : ℂ) }).tamps = (A.pqe (A.startOf a keys)).tamps := rfl
      rw [e, this]
      cases jacobiSolver (pqeJacobiEnv o so none X O orbE (A.pqe (A.startOf a keys)) dets) (A.pqe (A.startOf a keys)).tamps <;> rfl
    rw [hsolve]
    cases pqeSolve o so none X O orbE (A.pqe (A.startOf a keys)) dets with
    | error e => rfl
    | ok r =>
      obtain ⟨x, e⟩ := r
      simp only [Except.map, except_ok_bind]
      have hbu : ({ ({ A with ham := A.ham.multCoeffs (b : ℂ) } : AlgObj).pqe { A.startOf a keys with ham := A.ham.multCoeffs (b : ℂ) } with tamps := x } : PqeAlg).buildUvqc o so none =
        ({ A.pqe (A.startOf a keys) with tamps := x } : PqeAlg).buildUvqc o so none := rfl
      rw [hbu]
      cases ({ A.pqe (A.startOf a keys) with tamps := x } : PqeAlg).buildUvqc o so none <;> rfl

/-- C121, a concrete case of the hypotheses of `C121_pqe`: the four-qubit system of C97, the "SD" pool and the Jacobi solver, in a unit half as large -/
theorem C121_pqe_example (N : SQOpPool.NextPerm) (o : DescSort) (so : SortOracle) (X : UccRunExt) : ∃ A, ansatzInit .uccnpqe fourQubits {} = .ok A ∧ ArgsSound fourQubits {} A.nqb ∧
    Occ A.ref ∧ A.ref ≠ [] ∧ A.nqb ≤ 64 ∧ IsRefDet A.ref 3 ∧ ∃ keys, ([3, 2], [1, 0]) ∈ keys ∧ (∀ x ∈ keys, Excit A.nqb x.1 x.2 ∧ x.1.length ≤ 19 ∧ ParticleHole A.ref x.1 x.2) ∧
      ∃ fuel, startAnsatz N o fuel A {} (.name "SD") = .ok (A.startOf {} keys) ∧
        uccnpqeRun N o so none fuel X { optimizer := "Jacobi", optMaxiter := 10, optThresh := 2 * 1e-6, diisMaxDim := 8 } { A with ham := A.ham.multCoeffs ((2 : ℝ) : ℂ) } {} (.name "SD") (some [-2, 2]) =
          (uccnpqeRun N o so none fuel X { optimizer := "Jacobi", optMaxiter := 10, optThresh := 1e-6, diisMaxDim := 8 } A {} (.name "SD") (some [-1, 1])).map
            fun r => ({ r.1 with ham := A.ham.multCoeffs ((2 : ℝ) : ℂ) }, r.2.1, 2 * r.2.2.1, r.2.2.2) := by
  obtain ⟨A, hA, hs, hn4, hO, hne, hR, -, keys, hmem, -, hk, fuel, hstart, -⟩ := C112_example N o so
  have h := C121_pqe N o so fuel X { optimizer := "Jacobi", optMaxiter := 10, optThresh := 1e-6, diisMaxDim := 8 } (by decide) _ _ _ A hA hs rfl (by decide) (.name "SD") (some [-1, 1]) keys hk hO hne
    (by omega) 3 hR hstart (b := 2) two_pos
  refine ⟨A, hA, hs, hO, hne, by omega, hR, keys, hmem, hk, fuel, hstart, ?_⟩
  have e : (some [-1, 1] : Option (List ℝ)).map (List.map ((2 : ℝ) * ·)) = some [-2, 2] := by norm_num
  rw [e] at h
  exact h

end QF
