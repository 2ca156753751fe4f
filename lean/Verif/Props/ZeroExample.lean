import Verif.Props.ZeroQite
import Verif.Props.ResidualSq
import Mathlib.Analysis.Matrix.PosDef
/-!
C120: concrete cases of the hypotheses.
-/
namespace QF
open SQOperator (DescSort)
open QubitOperator (SortOracle)

section
open scoped ComplexOrder

theorem full_iff {eig : EigOracle} (hE : DescEig eig) {k : ℕ} {S : NMat} (hS : ∀ i < k, ∀ j < k, (starRingEnd ℂ) (S i j) = S j i) (ε : ℝ) :
    (∀ z ∈ (eig k S).1, ε < z.re) ↔ (NMat.mat k k S - (ε : ℂ) • (1 : Matrix (Fin k) (Fin k) ℂ)).PosDef := by
  obtain ⟨h1, h2, -⟩ := hE k S hS
  have hr := eig_real hS h1 h2
  have hU := mat_orthonormal h2
  set U := NMat.mat k k (eig k S).2 with hUd
  have hu : IsUnit U := ⟨⟨U, U.conjTranspose, mul_eq_one_comm.1 hU, hU⟩, rfl⟩
  rw [← Matrix.IsUnit.posDef_star_left_conjugate_iff hu]
  have e : star U * (NMat.mat k k S - (ε : ℂ) • (1 : Matrix (Fin k) (Fin k) ℂ)) * U = Matrix.diagonal (fun j : Fin k => (eig k S).1.getD j 0 - (ε : ℂ)) := by
    rw [Matrix.mul_sub, Matrix.sub_mul, Matrix.mul_smul, Matrix.mul_one, Matrix.smul_mul, Matrix.star_eq_conjTranspose, hU, Matrix.mul_assoc, eig_diag h1 h2]
    funext i j
    by_cases hij : i = j
    · subst hij; simp
    · simp [Matrix.diagonal_apply_ne _ hij, Matrix.one_apply_ne hij]
  rw [e, Matrix.posDef_diagonal_iff]
  constructor
  · intro h i
    have hi : (i : ℕ) < (eig k S).1.length := by rw [h1.1]; exact i.2
    rw [List.getD_eq_getElem _ _ hi, Complex.lt_def]
    have a := h _ (List.getElem_mem hi)
    have b := hr _ (List.getElem_mem hi)
    simp [a, b]
  · intro h z hz
    obtain ⟨j, hj, rfl⟩ := List.getElem_of_mem hz
    have := h ⟨j, by rw [← h1.1]; exact hj⟩
    rw [List.getD_eq_getElem _ _ hj, Complex.lt_def] at this
    simpa using this.1

/-- states that agree up to phases: a direction is dropped in both calculations or in none -/
theorem full_phase {eig : EigOracle} (hE : DescEig eig) {n k : ℕ} {φ φ' : ℕ → St} {S S' : NMat} (hS : ∀ i < k, ∀ j < k, S i j = inner n (φ i) (φ j))
    (hS' : ∀ i < k, ∀ j < k, S' i j = inner n (φ' i) (φ' j)) (hu : ∀ p < k, ∃ u : ℂ, ‖u‖ = 1 ∧ φ' p = u • φ p) (ε : ℝ) (h : ∀ z ∈ (eig k S).1, ε < z.re) :
    ∀ z ∈ (eig k S').1, ε < z.re := by
  have herm : ∀ {χ : ℕ → St} {N : NMat}, (∀ i < k, ∀ j < k, N i j = inner n (χ i) (χ j)) → ∀ i < k, ∀ j < k, (starRingEnd ℂ) (N i j) = N j i :=
    fun g i hi j hj => by rw [g i hi j hj, g j hj i hi, inner_conj]
  choose u hu1 hu2 using hu
  rw [full_iff hE (herm hS)] at h
  rw [full_iff hE (herm hS')]
  set D : Matrix (Fin k) (Fin k) ℂ := Matrix.diagonal fun p => u p p.2 with hD
  have uu : ∀ p hp, (starRingEnd ℂ) (u p hp) * u p hp = 1 := fun p hp => by
    rw [mul_comm, Complex.mul_conj, Complex.normSq_eq_norm_sq, hu1]; simp
  have dd : star D * D = 1 := by
    rw [hD, Matrix.star_eq_conjTranspose, Matrix.diagonal_conjTranspose, Matrix.diagonal_mul_diagonal, ← Matrix.diagonal_one]
    congr 1
    funext p
    exact uu p p.2
  have hd : IsUnit D := ⟨⟨D, star D, mul_eq_one_comm.1 dd, dd⟩, rfl⟩
  rw [← Matrix.IsUnit.posDef_star_left_conjugate_iff hd] at h
  convert h using 1
  rw [Matrix.mul_sub, Matrix.sub_mul, Matrix.mul_smul, Matrix.mul_one, Matrix.smul_mul, dd]
  congr 1
  funext i j
  rw [hD, Matrix.star_eq_conjTranspose, Matrix.diagonal_conjTranspose, Matrix.mul_diagonal, Matrix.diagonal_mul]
  show S' i j = star (u i i.2) * S i j * u j j.2
  rw [hS' i i.2 j j.2, hS i i.2 j j.2, hu2 i i.2, hu2 j j.2, inner_smul_right, inner_smul_left']
  rw [starRingEnd_apply]; ring

end

/-- the two-qubit instance of C116 with two states and the constant 3 added -/
theorem sectorQk_shifted : Shifted 3 sectorQk.ham (sectorQk.ham ++ [(3, [])]) := ⟨sectorQk.ham, [], 0, 3, .inr ⟨rfl, by simp⟩, by simp, by norm_num⟩

/-- C120, a concrete case of the hypotheses of `C120_srqk` -/
theorem C120_example {eig : EigOracle} (hE : DescEig eig) : ({ sectorQk with nstates := 2 } : QkAlg).Ready ∧ Shifted 3 sectorQk.ham (sectorQk.ham ++ [(3, [])]) ∧
    ∃ S H R R', ({ sectorQk with nstates := 2 } : QkAlg).srqkMats = .ok (S, H) ∧ (∀ z ∈ (eig 2 S).1, 1e-15 < z.re) ∧ ({ sectorQk with nstates := 2 } : QkAlg).srqkRun eig 0 = .ok R ∧
      ({ sectorQk with nstates := 2, ham := sectorQk.ham ++ [(3, [])] } : QkAlg).srqkRun eig 0 = .ok R' ∧ R'.eigenvalues = R.eigenvalues.map (· + 3) := by
  obtain ⟨-, -, S, H, -, R, e, hfull, -, r, -, -⟩ := C116_example hE
  have hr' : ({ sectorQk with nstates := 2, ham := sectorQk.ham ++ [(3, [])] } : QkAlg).Ready :=
    ⟨(sectorQk_ready 2).prep, sectorQk_shifted.ready (sectorQk_ready 2).ham, (sectorQk_ready 2).steps⟩
  have hp : ∀ g ∈ sectorQk.uprep, ApiGate g := by
    intro g hg
    simp only [sectorQk, List.mem_cons, List.not_mem_nil, or_false] at hg
    rcases hg with rfl | rfl
    · exact .make (pauliGate_X 0).make
    · exact .make (pauliGate_X 1).make
  obtain ⟨S0, H0, ψ0, e0, hψ0, hM0⟩ := C77_srqk _ (sectorQk_ready 2) (by decide)
  obtain ⟨S1, H1, ψ1, e1, hψ1, hM1⟩ := C77_srqk _ hr' (by decide)
  rw [e] at e0; cases e0
  have hfull' := full_phase hE (fun i hi j hj => (hM0 i hi j hj).1) (fun i hi j hj => (hM1 i hi j hj).1) (k := 2) (fun p _ => sectorQk_shifted.trotter (hψ0 p) (hψ1 p)) _ hfull
  obtain ⟨S2, H2, ψ2, rank, e2, hr, -, -, run, -⟩ := C83_srqk hE _ hr' hp (by decide) 0
  rw [e1] at e2; cases e2
  have h2 : ∀ i < 2, ∀ j < 2, (starRingEnd ℂ) (S1 i j) = S1 j i := fun i hi j hj => by rw [(hM1 i hi j hj).1, (hM1 j hj i hi).1, inner_conj]
  have hk : rank = 2 := by
    rw [hr, List.filter_eq_self.2 (by intro z hz; simpa using hfull' z hz)]
    exact (hE 2 S1 h2).1.1
  obtain ⟨R', r', -⟩ := run (by omega)
  exact ⟨sectorQk_ready 2, sectorQk_shifted, S, H, R, R', e, hfull, r, r', C120_srqk hE _ (sectorQk_ready 2) (by decide) sectorQk_shifted r r'⟩

/-- C120, a concrete case of the hypotheses of `C120_pqe`: the four-qubit system of C97 with the constant 3 added, a minimiser that returns its starting point, and two runs that end -/
theorem C120_pqe_example (N : SQOpPool.NextPerm) (o : DescSort) (so : SortOracle) : ∃ A, ansatzInit .uccnpqe fourQubits {} = .ok A ∧ ArgsSound fourQubits {} A.nqb ∧ Occ A.ref ∧ A.ref ≠ [] ∧ A.nqb ≤ 64 ∧
    IsRefDet A.ref 3 ∧ Shifted 3 A.ham (A.ham ++ [(3, [])]) ∧ ∃ keys, ([3, 2], [1, 0]) ∈ keys ∧ (∀ x ∈ keys, Excit A.nqb x.1 x.2 ∧ x.1.length ≤ 19 ∧ ParticleHole A.ref x.1 x.2) ∧
      ∃ fuel, startAnsatz N o fuel A {} (.name "SD") = .ok (A.startOf {} keys) ∧ ∃ X, SeesResiduals o so X ∧ ∃ U dets E c,
        uccnpqeRun N o so none fuel X { optimizer := "BFGS", optMaxiter := 10, optThresh := 1e-6, diisMaxDim := 8 } A {} (.name "SD") (some [-1, 1]) = .ok (U, dets, E, c) ∧
        uccnpqeRun N o so none fuel X { optimizer := "BFGS", optMaxiter := 10, optThresh := 1e-6, diisMaxDim := 8 } { A with ham := A.ham ++ [(3, [])] } {} (.name "SD") (some [-1, 1]) =
          .ok ({ U with ham := A.ham ++ [(3, [])] }, dets, E + 3, c) := by
  obtain ⟨A, hA, hs, hn4, hO, hne, hR, -, keys, hmem, -, hk, fuel, hstart, -⟩ := C112_example N o so
  have hsh : Shifted 3 A.ham (A.ham ++ [(3, [])]) := ⟨A.ham, [], 0, 3, .inr ⟨rfl, by simp⟩, by simp, by norm_num⟩
  have hX : SeesResiduals o so ⟨fun B => .error .exception, fun B _ => .ok B.tamps, fun _ _ => []⟩ := fun _ _ _ _ => rfl
  obtain ⟨U, dets, E, c, e⟩ := C112_returns N o so fuel ⟨fun B => .error .exception, fun B _ => .ok B.tamps, fun _ _ => []⟩
    { optimizer := "BFGS", optMaxiter := 10, optThresh := 1e-6, diisMaxDim := 8 } _ _ _ A hA hs rfl rfl (by decide) (.name "SD") [-1, 1] keys hk hO hne (by omega) 3 hR hstart
    (by decide) fun B _ => ⟨_, rfl⟩
  have h := C120_pqe N o so fuel _ hX { optimizer := "BFGS", optMaxiter := 10, optThresh := 1e-6, diisMaxDim := 8 } _ _ _ A hA hs rfl (by decide) (.name "SD") (some [-1, 1]) keys hk hO hne (by omega) 3 hR
    hstart (hsh.opShift (startOf_ready hA hs keys (A.startOf {} keys).tamps).ham)
  rw [e] at h
  exact ⟨A, hA, hs, hO, hne, by omega, hR, hsh, keys, hmem, hk, fuel, hstart, _, hX, U, dets, E, c, e, h⟩

end QF
