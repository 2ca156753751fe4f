import Verif.Props.UccRun
import Verif.Props.AlgorithmArgs

/-!
C97: whole runs of UCCNPQE.
-/
namespace QF

open SQOperator (DescSort jwTransform)
open QubitOperator (SortOracle)
open SQOpPool (NextPerm)
open Adapt

/-- C97: `UCCNPQE.run` needs a reference given as an occupation list. -/
theorem C97_pqe_state_prep (N : NextPerm) (o : DescSort) (so : SortOracle) (par : Option Schedule) (fuel : ℕ) (X : UccRunExt) (O : UccRunOpts) (A : AlgObj) (a : AlgArgs)
    (t : PoolArg) (hf : Option (List ℝ)) (h : a.statePrep ≠ "occupation_list") : uccnpqeRun N o so par fuel X O A a t hf = .error .valueError := by
  unfold uccnpqeRun
  rw [if_pos h]

theorem pqePool {cls : AlgClass} {S : QSystem} {a : AlgArgs} {A : AlgObj} (h : ansatzInit cls S a = .ok A) (hO : Occ A.ref) (h0 : A.ref ≠ []) (h64 : A.nqb ≤ 64)
    {keys : List (List ℕ × List ℕ)} (hk : ∀ x ∈ keys, Excit A.nqb x.1 x.2 ∧ x.1.length ≤ 19 ∧ ParticleHole A.ref x.1 x.2) (ts : List ℝ) :
    PqeAlg.Pool { A.pqe (A.startOf a keys) with tamps := ts } keys := by
  obtain ⟨A0, e0, hA, -, -⟩ := ansatz_base h
  obtain ⟨-, -, -, g4, -, -, -, -, -, g10, -⟩ := C96_object cls S a A0 e0
  refine ⟨hO, h0, ?_, h64, ?_, ?_⟩
  · show A.ref.length = A.nqb
    rw [hA]; exact g4.symm
  · show buildRefprep A.ref = .ok A.refprep
    rw [hA]; exact g10
  · show List.Forall₂ _ (keys.map fun x => ((1 : ℂ), excTerms x.1 x.2)) keys
    rw [List.forall₂_map_left_iff]
    exact List.forall₂_same.2 fun x hx => ⟨rfl, hk x hx⟩

theorem pqe_computer {cls : AlgClass} {S : QSystem} {a : AlgArgs} {A : AlgObj} (h : ansatzInit cls S a = .ok A) (hp : a.statePrep = "occupation_list") :
    A.computer = none ∧ A.uprep = A.refprep := by
  obtain ⟨A0, e0, hA, -, -⟩ := ansatz_base h
  obtain ⟨-, -, -, -, -, -, -, -, -, -, g11, -⟩ := C96_object cls S a A0 e0
  rw [hA]
  exact ⟨(g11 hp).2, (g11 hp).1⟩

/-- the optimizer of the residuals returns as many amplitudes as there were -/
def ReportsRes (X : UccRunExt) : Prop := ∀ B dets x, X.minimizeRes B dets = .ok x → x.length = B.tamps.length

theorem pqeSolve_ok {o : DescSort} {so : SortOracle} {par : Option Schedule} {X : UccRunExt} {O : UccRunOpts} {orbE : List ℝ} {U : PqeAlg} {dets : List (ℕ × ℂ)} {x : List ℝ}
    {e : ℝ} (hX : ReportsRes X) (h : pqeSolve o so par X O orbE U dets = .ok (x, e)) : x.length = U.tamps.length ∧ U.energyFeval o so par x = .ok e := by
  unfold pqeSolve at h
  by_cases hj : pyLower O.optimizer = "jacobi"
  · rw [if_pos hj] at h
    obtain ⟨⟨x', e', k⟩, h1, h⟩ := bindOk h
    cases h
    exact ⟨C75_length _ _ _ _ _ h1, (C75_run _ _ _ _ _ h1).2.2.1⟩
  · rw [if_neg hj] at h
    by_cases hm : pyLower O.optimizer ∈ ["nelder-mead", "powell", "bfgs", "l-bfgs-b", "cg", "slsqp"]
    · rw [if_pos hm] at h
      obtain ⟨_, -, h⟩ := bindOk h
      obtain ⟨x', h1, h⟩ := bindOk h
      obtain ⟨e', h2, h⟩ := bindOk h
      cases h
      exact ⟨hX _ _ _ h1, h2⟩
    · rw [if_neg hm] at h; cases h

/-- C97: what a run of `UCCNPQE` that returns has done.  The ansatz contains all excitations of the pool, with as many amplitudes; for each of them the determinant it makes from
the reference determinant `R` is known, with its sign; the reported energy is the expectation value of the Hamiltonian in the normalised state `ψ` that the circuit of the final
amplitudes makes from `R`, so it lies above every lower bound of the Hamiltonian; the number of CNOTs is that of the preparation and this circuit.  If the excitations conserve the
symmetries, `ψ` has the electron number, spin and irrep of `R`. -/
theorem C97_pqe (N : NextPerm) (o : DescSort) (so : SortOracle) (fuel : ℕ) (X : UccRunExt) (hX : ReportsRes X) (O : UccRunOpts) (cls : AlgClass) (S : QSystem) (a : AlgArgs)
    (A : AlgObj) (h : ansatzInit cls S a = .ok A) (hs : ArgsSound S a A.nqb) (hc : a.compact = false) (hN : 1 ≤ a.trotterNumber) (t : PoolArg)
    (hf : Option (List ℝ)) (keys : List (List ℕ × List ℕ)) (hk : ∀ x ∈ keys, Excit A.nqb x.1 x.2 ∧ x.1.length ≤ 19 ∧ ParticleHole A.ref x.1 x.2)
    (hO : Occ A.ref) (h0 : A.ref ≠ []) (h64 : A.nqb ≤ 64) (R : ℕ) (hR : IsRefDet A.ref R)
    (hstart : startAnsatz N o fuel A a t = .ok (A.startOf a keys)) (U : PqeAlg) (dets : List (ℕ × ℂ)) (E : ℝ) (c : ℤ)
    (hrun : uccnpqeRun N o so none fuel X O A a t hf = .ok (U, dets, E, c)) :
    U = { A.pqe (A.startOf a keys) with tamps := U.tamps } ∧ U.tamps.length = keys.length ∧ List.Forall₂ (Excites A.nqb a.qubitExc R) keys dets ∧
      ∃ C, U.ansatzCircuit o so none = .ok C ∧ c = (A.uprep ++ C).getNumCnots ∧ E = energy A.nqb A.ham.op (C.op (Pi.single R 1)) ∧ OnReg A.nqb (C.op (Pi.single R 1)) ∧
        inner A.nqb (C.op (Pi.single R 1)) (C.op (Pi.single R 1)) = 1 ∧
        (∀ lam : ℝ, (∀ ψ, OnReg A.nqb ψ → lam * (inner A.nqb ψ ψ).re ≤ energy A.nqb A.ham.op ψ) → lam ≤ E) ∧
        ∀ orb : List ℕ, (∀ x ∈ keys, SymExc orb x.1 x.2) → InSector orb A.nqb R (C.op (Pi.single R 1)) := by
  unfold uccnpqeRun at hrun
  by_cases hp : a.statePrep = "occupation_list"
  swap
  · rw [if_pos hp] at hrun; cases hrun
  rw [if_neg (not_not.2 hp), hstart, except_ok_bind] at hrun
  obtain ⟨dets', h1, hrun⟩ := bindOk hrun
  obtain ⟨orbE, -, hrun⟩ := bindOk hrun
  obtain ⟨⟨x, e⟩, h3, hrun⟩ := bindOk hrun
  obtain ⟨C', h4, hrun⟩ := bindOk hrun
  cases hrun
  obtain ⟨g1, g2⟩ := pqeSolve_ok hX h3
  have hk' : ∀ x ∈ keys, Excit A.nqb x.1 x.2 ∧ x.1.length ≤ 19 := fun x hx => ⟨(hk x hx).1, (hk x hx).2.1⟩
  obtain ⟨dets'', d1, d2⟩ := C73_excited_dets o (A.pqe (A.startOf a keys)) keys (pqePool h hO h0 h64 hk _) R hR
  rw [h1] at d1; cases d1
  have hsel : ({ A.startOf a keys with tamps := x } : UccAlg).Selects keys := startOf_selects a hk'
  obtain ⟨C, c1, c2, c3, c4, c5, c6⟩ := exc_state o so { A.startOf a keys with tamps := x } keys hsel rfl hc hN (startOf_ready h hs keys x) x
  have hn : A.nqb = A.ref.length := (C96_ready cls S a A h hs t {} [] []).2.1
  have href := startOf_reference h hp hO hR keys x
  rw [href] at c3 c4 c5 c6
  have hlt : R < 2 ^ A.nqb := hn ▸ refDet_lt hR
  replace c5 : inner A.nqb (C.op (Pi.single R 1)) (C.op (Pi.single R 1)) = 1 := Eq.trans c5 (inner_det_self hlt)
  rw [energy_tamps] at c3
  have hb : C' = A.uprep ++ C := Except.ok.inj (h4.symm.trans c2)
  have hE : E = energy A.nqb A.ham.op (C.op (Pi.single R 1)) := Except.ok.inj (g2.symm.trans c3)
  refine ⟨rfl, by rw [g1]; simp [AlgObj.startOf, AlgObj.pqe], d2, C, c1, by rw [hb], hE, c4, c5, fun lam hl => ?_, fun orb h1 => ⟨c4, fun I hI => ?_⟩⟩
  · have := hl _ c4
    rw [c5, ← hE] at this
    simpa using this
  · obtain ⟨J, hJ, e⟩ := c6 orb h1 I hI
    obtain rfl : J = R := by
      by_contra hne
      exact hJ (Pi.single_eq_of_ne hne 1)
    exact e

/-- C97: the Jacobi run of `UCCNPQE` makes at least one and at most `opt_maxiter` steps.  If it stops earlier, the residuals of the last but one amplitudes have a norm below the threshold;
without DIIS the final amplitudes are these plus the residuals over the MP denominators. -/
theorem C97_pqe_jacobi (N : NextPerm) (o : DescSort) (so : SortOracle) (par : Option Schedule) (fuel : ℕ) (X : UccRunExt) (O : UccRunOpts) (A : AlgObj) (a : AlgArgs) (t : PoolArg)
    (hf : Option (List ℝ)) (U0 : UccAlg) (hstart : startAnsatz N o fuel A a t = .ok U0) (hj : pyLower O.optimizer = "jacobi") (U : PqeAlg) (dets : List (ℕ × ℂ))
    (E : ℝ) (c : ℤ) (hrun : uccnpqeRun N o so par fuel X O A a t hf = .ok (U, dets, E, c)) :
    ∃ k, 1 ≤ k ∧ k ≤ O.optMaxiter ∧ ∃ orbE t' r u, A.orbE par U0 hf = .ok orbE ∧ U.residualVector o so dets t' = .ok r ∧ U.resOverMpdenom orbE (r.map Complex.re) = .ok u ∧
      (k < O.optMaxiter → npNorm (r.map Complex.re) < O.optThresh) ∧ (O.diisMaxDim < 2 → npAdd t' u = .ok U.tamps) := by
  unfold uccnpqeRun at hrun
  by_cases hp : a.statePrep = "occupation_list"
  swap
  · rw [if_pos hp] at hrun; cases hrun
  rw [if_neg (not_not.2 hp), hstart, except_ok_bind] at hrun
  obtain ⟨dets', h1, hrun⟩ := bindOk hrun
  obtain ⟨orbE, h2, hrun⟩ := bindOk hrun
  obtain ⟨⟨x, e⟩, h3, hrun⟩ := bindOk hrun
  obtain ⟨C', h4, hrun⟩ := bindOk hrun
  cases hrun
  unfold pqeSolve at h3
  rw [if_pos hj] at h3
  obtain ⟨⟨x', e', k⟩, h5, h3⟩ := bindOk h3
  cases h3
  obtain ⟨k1, k2, -, st, k3, -, -, -, k4, k5, -⟩ := C75_run _ _ _ _ _ h5
  obtain ⟨j, rfl⟩ : ∃ j, k = j + 1 := ⟨k - 1, by omega⟩
  obtain ⟨-, r, u, t1, e1, r1, r2, r3, -, r5, r6, -⟩ := k3 j (by omega)
  refine ⟨j + 1, k1, k2, orbE, (st j).tamps, ?_⟩
  have r1' : (((A.pqe U0).residualVector o so dets (st j).tamps).map fun r => r.map Complex.re) = .ok r := r1
  obtain ⟨r0, hr0, hr⟩ : ∃ r0, (A.pqe U0).residualVector o so dets (st j).tamps = .ok r0 ∧ r0.map Complex.re = r := by
    revert r1'
    cases (A.pqe U0).residualVector o so dets (st j).tamps with
    | error e => intro h; cases h
    | ok r0 => intro h; cases h; exact ⟨r0, rfl, rfl⟩
  subst hr
  refine ⟨r0, u, h2, hr0, r2, fun hlt => by rw [← r5]; exact k5 hlt, fun hd => ?_⟩
  rw [r3, ← (r6 hd).1, k4]

/-- C97: any other optimizer is refused. -/
theorem C97_pqe_optimizer (N : NextPerm) (o : DescSort) (so : SortOracle) (par : Option Schedule) (fuel : ℕ) (X : UccRunExt) (O : UccRunOpts) (A : AlgObj) (a : AlgArgs) (t : PoolArg)
    (hf : Option (List ℝ)) (hO : pyLower O.optimizer ∉ ["jacobi", "nelder-mead", "powell", "bfgs", "l-bfgs-b", "cg", "slsqp"]) (U : PqeAlg × List (ℕ × ℂ) × ℝ × ℤ) :
    uccnpqeRun N o so par fuel X O A a t hf ≠ .ok U := by
  intro hrun
  unfold uccnpqeRun at hrun
  by_cases hp : a.statePrep = "occupation_list"
  swap
  · rw [if_pos hp] at hrun; cases hrun
  rw [if_neg (not_not.2 hp)] at hrun
  obtain ⟨U0, -, hrun⟩ := bindOk hrun
  obtain ⟨dets', h1, hrun⟩ := bindOk hrun
  obtain ⟨orbE, h2, hrun⟩ := bindOk hrun
  obtain ⟨⟨x, e⟩, h3, hrun⟩ := bindOk hrun
  unfold pqeSolve at h3
  rw [List.mem_cons, not_or] at hO
  rw [if_neg hO.1, if_neg hO.2] at h3
  cases h3

/-! ### an example -/

/-- four spin orbitals, two of them occupied, with the Hamiltonian `Z₃ + X₀ X₂` -/
noncomputable def fourQubits : QSystem := { hfReference := some [1, 1, 0, 0], hamiltonian := [(1, [gZ 3]), (1, [gX 0, gX 2])] }

theorem fourQubits_pauli : fourQubits.hamiltonian.IsPauli := by
  intro t ht g hg
  have hZ : ∀ k, ApiGate (gZ k) ∧ ((gZ k).label = "X" ∨ (gZ k).label = "Y" ∨ (gZ k).label = "Z") := fun k => ⟨.make (make_Z k 0), .inr (.inr rfl)⟩
  have hX : ∀ k, ApiGate (gX k) ∧ ((gX k).label = "X" ∨ (gX k).label = "Y" ∨ (gX k).label = "Z") := fun k => ⟨.make (make_X k 0), .inl rfl⟩
  simp only [fourQubits, List.mem_cons, List.not_mem_nil, or_false] at ht
  rcases ht with rfl | rfl <;> simp only [List.mem_cons, List.not_mem_nil, or_false] at hg
  · subst hg; exact hZ _
  · rcases hg with rfl | rfl <;> exact hX _

/-- C97: the hypotheses are met: the algorithm is constructed for the four-qubit system, the ansatz of its "SD" pool contains the double excitation, and with an optimizer that
returns the amplitudes it was given the run returns. -/
theorem C97_example (N : NextPerm) (o : DescSort) (so : SortOracle) : ∃ A, ansatzInit .uccnvqe fourQubits {} = .ok A ∧ ArgsSound fourQubits {} A.nqb ∧ A.nqb = 4 ∧ Occ A.ref ∧ IsRefDet A.ref 3 ∧
    ∃ keys, ([3, 2], [1, 0]) ∈ keys ∧ (∀ x ∈ keys, Excit A.nqb x.1 x.2 ∧ x.1.length ≤ 19 ∧ ParticleHole A.ref x.1 x.2 ∧ SymExc A.irreps x.1 x.2) ∧
      ∃ fuel, startAnsatz N o fuel A {} (.name "SD") = .ok (A.startOf {} keys) ∧ ∃ X, Reports o so none X ∧ ReportsRes X ∧
        ∃ e c, uccnvqeRun N o so none fuel X { optimizer := "BFGS", optMaxiter := 10, optThresh := 1e-6, diisMaxDim := 8 } A {} (.name "SD") none =
          .ok (A.startOf {} keys, e, c) := by
  obtain ⟨A, hA⟩ := (C96_ansatz .uccnvqe fourQubits {} (by simp) fourQubits_pauli (by simp)).2
    ⟨(C96_accepts .uccnvqe fourQubits {}).2 ⟨[1, 1, 0, 0], .hf rfl rfl rfl, rfl, fun h => by simp at h⟩, by simp, by simp⟩
  have hr : A.ref = [1, 1, 0, 0] ∧ A.sys = fourQubits := by
    obtain ⟨A0, e0, e1, _⟩ := ansatz_base hA
    have : A0.ref = [1, 1, 0, 0] := by
      cases (C96_object _ _ _ A0 e0).1.1 with
      | hf _ _ h => exact (Option.some.inj h).symm
      | occupation _ h => cases h
      | circuit _ h _ _ => exact absurd h (by decide)
      | computer _ h _ _ _ _ _ => exact absurd h (by decide)
    rw [e1]
    exact ⟨this, (C96_object _ _ _ A0 e0).2.2.1⟩
  have hs : ArgsSound fourQubits {} A.nqb :=
    ⟨fourQubits_pauli, fun C h => absurd h (by decide), (fun q h => nomatch h), (fun v ops eigs scales h => nomatch h)⟩
  have hn : A.nqb = A.ref.length := (C96_ready _ _ _ A hA hs (.name "SD") {} [] []).2.1
  have hn4 : A.nqb = 4 := by rw [hn, hr.1]; rfl
  have hO : Occ A.ref := by rw [hr.1]; intro x hx; simp at hx; omega
  have hR : IsRefDet A.ref 3 := by
    rw [hr.1]
    intro i
    rcases i with _ | _ | _ | _ | i
    · decide
    · decide
    · decide
    · decide
    · rw [Nat.testBit_lt_two_pow (lt_of_lt_of_le (by norm_num : 3 < 2 ^ 4) (Nat.pow_le_pow_right (by norm_num) (by omega)))]
      simp
  have hirr : A.irreps = [0, 0] := by
    unfold AlgObj.irreps
    rw [hr.1, hr.2]
    rfl
  obtain ⟨keys, ⟨fuel, hstart⟩, hkeys, hk⟩ := C97_particle_hole N o A {} 2 (by rw [hr.1]; rfl) (by omega) hO (by
      rw [hr.1]
      intro i hi
      rw [List.getD_eq_default]
      show 4 ≤ i
      omega) hn (by rw [hirr]; rfl) 3 hR "SD" 2 (by simp [poolRanks])
  have hk' : ∀ x ∈ keys, Excit A.nqb x.1 x.2 ∧ x.1.length ≤ 19 := fun x hx => ⟨(hk x hx).1, by have := (hk x hx).2.1; omega⟩
  refine ⟨A, hA, hs, hn4, hO, hR, keys, ?_, fun x hx => ⟨(hk' x hx).1, (hk' x hx).2, (hk x hx).2.2.1, (hk x hx).2.2.2⟩, fuel, hstart fuel le_rfl,
    ⟨fun B => (B.energyFeval o so none B.tamps).map fun e => (B.tamps, e), fun B _ => .ok B.tamps, fun _ _ => []⟩, ?_, ?_, ?_⟩
  · rw [hkeys, hirr]
    refine List.mem_map.2 ⟨12, List.mem_filter.2 ⟨by decide, decide_eq_true ⟨by decide, by decide, ⟨by decide, by decide⟩, by decide, by decide, by decide⟩⟩, by decide⟩
  · intro B x e h
    simp only at h
    cases he : B.energyFeval o so none B.tamps with
    | error _ => rw [he] at h; cases h
    | ok v => rw [he] at h; cases h; exact ⟨rfl, he⟩
  · intro B dets x h
    cases h; rfl
  · obtain ⟨C0, -, -, d3, -⟩ := exc_state o so (A.startOf {} keys) keys (startOf_selects {} hk') rfl rfl (le_refl (1 : ℤ)) (startOf_ready hA hs keys _) (A.startOf {} keys).tamps
    obtain ⟨c, hc⟩ := C97_vqe_returns N o so fuel ⟨fun B => (B.energyFeval o so none B.tamps).map fun e => (B.tamps, e), fun B _ => .ok B.tamps, fun _ _ => []⟩ { optimizer := "BFGS", optMaxiter := 10, optThresh := 1e-6, diisMaxDim := 8 } _ _ _ A hA hs rfl (by decide) (.name "SD") none keys hk'
      (hstart fuel le_rfl) (by decide) (A.startOf {} keys).tamps _ (by simp only [d3]; rfl)
    exact ⟨_, c, hc⟩

end QF
