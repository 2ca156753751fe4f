import Verif.Props.UnitsUcc
import Verif.Props.ZeroExample
/-!
C121 for the steps of QITE, and concrete cases.
-/
namespace QF

/-- the Trotter states for `H` and `τ` are those for `a H` and `τ / a` -/
theorem trotter_units {H : QubitOperator} {N : ℤ} {a τ : ℝ} (ha : a ≠ 0) {Φ ψ : St} (h : TrotterState H N τ Φ ψ) : TrotterState (H.multCoeffs (a : ℂ)) N (τ / a) Φ ψ := by
  obtain ⟨Us, h1, rfl⟩ := h
  refine ⟨Us, ?_, rfl⟩
  unfold QubitOperator.multCoeffs
  rw [List.forall₂_map_left_iff]
  refine h1.imp fun t U hU => ?_
  have ha' : (a : ℂ) ≠ 0 := by exact_mod_cast ha
  have : -Complex.I * ((τ / a : ℝ) : ℂ) * (t.1 * (a : ℂ)) / (N : ℂ) = -Complex.I * (τ : ℂ) * t.1 / (N : ℂ) := by
    push_cast
    field_simp
  show IsExp ((-Complex.I * ((τ / a : ℝ) : ℂ) * (t.1 * (a : ℂ)) / (N : ℂ)) • t.2.op) U
  rw [this]
  exact hU

namespace QiteAlg

/-- the calculation in other units, the two thresholds included: they are compared with energies -/
noncomputable def inUnits (A : QiteAlg) (a : ℝ) : QiteAlg :=
  { A with ham := A.ham.multCoeffs (a : ℂ), db := A.db / a, bThresh := a * A.bThresh, xThresh := a * A.xThresh }

theorem norm_units {n : ℕ} {H : Op} {a : ℝ} (ha : a ≠ 0) (db : ℝ) (ψ : St) : 1 - 2 * (db / a) * energy n ((a : ℂ) • H) ψ = 1 - 2 * db * energy n H ψ := by
  rw [energy_scale n rfl]
  field_simp

theorem rhs_units {n : ℕ} {H : Op} {a : ℝ} (ha : a ≠ 0) (db : ℝ) (ψ : St) (σ : Circuit) : rhsElem n ((a : ℂ) • H) (db / a) ψ σ = a * rhsElem n H db ψ σ := by
  unfold rhsElem
  rw [norm_units ha, LinearMap.smul_apply, map_smul, inner_smul_right, Complex.im_ofReal_mul, mul_div_assoc]

theorem imagStep_units {n : ℕ} {H : Op} {a : ℝ} (ha : a ≠ 0) (db : ℝ) (ψ : St) : imagStep n ((a : ℂ) • H) (db / a) ψ = imagStep n H db ψ := by
  unfold imagStep
  rw [norm_units ha, LinearMap.smul_apply, smul_smul]
  congr 3
  have ha' : (a : ℂ) ≠ 0 := by exact_mod_cast ha
  push_cast
  field_simp

theorem comb_units (a : ℝ) (σ : List Circuit) (x : List ℝ) (ψ : St) : pauliComb σ (x.map (a * ·)) ψ = (a : ℂ) • pauliComb σ x ψ := by
  unfold pauliComb
  induction σ generalizing x with
  | nil => simp
  | cons c σ ih =>
    cases x with
    | nil => simp
    | cons y x =>
      rw [List.map_cons, List.zipWith_cons_cons, List.zipWith_cons_cons, List.sum_cons, List.sum_cons, ih, smul_add, smul_smul]
      push_cast
      rfl

theorem chosen_units (A : QiteAlg) {a : ℝ} (ha : 0 < a) (σ : List Circuit) (ψ : St) : (A.inUnits a).chosen σ ψ = A.chosen σ ψ := by
  unfold chosen
  have e1 : ∀ c, rhsElem (A.inUnits a).nqb (A.inUnits a).ham.op (A.inUnits a).db ψ c = a * rhsElem A.nqb A.ham.op A.db ψ c := fun c => by
    show rhsElem A.nqb (A.ham.multCoeffs (a : ℂ)).op (A.db / a) ψ c = _
    rw [scaled_op, rhs_units ha.ne']
  have e2 : 1 - 2 * (A.inUnits a).db * energy (A.inUnits a).nqb (A.inUnits a).ham.op ψ = 1 - 2 * A.db * energy A.nqb A.ham.op ψ := by
    show 1 - 2 * (A.db / a) * energy A.nqb (A.ham.multCoeffs (a : ℂ)).op ψ = _
    rw [scaled_op, norm_units ha.ne']
  have e3 : ∀ c, ((A.inUnits a).bThresh < |rhsElem (A.inUnits a).nqb (A.inUnits a).ham.op (A.inUnits a).db ψ c|) ↔ A.bThresh < |rhsElem A.nqb A.ham.op A.db ψ c| := fun c => by
    rw [e1, abs_mul, abs_of_pos ha]
    exact mul_lt_mul_iff_right₀ ha
  simp only [e2, e3]
  rfl

theorem kept_units (A : QiteAlg) {a : ℝ} (ha : 0 < a) (σ : List Circuit) (x : List ℝ) : (A.inUnits a).kept σ (x.map (a * ·)) = (A.kept σ x).multCoeffs (a : ℂ) := by
  have e : ∀ y : ℝ, ((A.inUnits a).xThresh < |a * y|) ↔ A.xThresh < |y| := fun y => by
    rw [abs_mul, abs_of_pos ha]
    exact mul_lt_mul_iff_right₀ ha
  unfold kept QubitOperator.multCoeffs
  induction σ generalizing x with
  | nil => simp
  | cons c σ ih =>
    cases x with
    | nil => simp
    | cons y x =>
      have ih := ih x
      rw [List.map_cons, List.zip_cons_cons, List.zip_cons_cons, List.filter_cons, List.filter_cons]
      simp only [e]
      by_cases h : A.xThresh < |y|
      · simp only [h, decide_true, if_true, List.map_cons]
        rw [ih]
        congr 2
        push_cast
        ring
      · simp only [h, decide_false, Bool.false_eq_true, if_false]
        exact ih

/-- C121: a step of QITE in other units: the coefficients scale, the next state is the same -/
theorem C121_qite_step (A : QiteAlg) {a : ℝ} (ha : 0 < a) {σ : List Circuit} {ψ χ : St} {x : List ℝ} (h : IsStep A σ ψ χ x) :
    IsStep (A.inUnits a) σ ψ χ (x.map (a * ·)) := by
  have ha' : (a : ℂ) ≠ 0 := by exact_mod_cast ha.ne'
  have hc := chosen_units A ha σ ψ
  have comb : ∀ y : List ℝ, (Complex.I * ((A.db / a : ℝ) : ℂ)) • pauliComb (A.chosen σ ψ) (y.map (a * ·)) ψ = (Complex.I * (A.db : ℂ)) • pauliComb (A.chosen σ ψ) y ψ := fun y => by
    rw [comb_units, smul_smul]
    congr 1
    push_cast
    field_simp
  refine ⟨?_, ?_, ?_⟩
  · rw [hc]
    obtain ⟨h1, h2⟩ := h.nearest
    refine ⟨by rw [List.length_map, h1], fun y hy => ?_⟩
    have hyy : y = (y.map (a⁻¹ * ·)).map (a * ·) := by
      rw [List.map_map]
      conv_lhs => rw [← List.map_id y]
      refine List.map_congr_left fun z _ => ?_
      simp [ha.ne']
    show nrm A.nqb (imagStep A.nqb (A.ham.multCoeffs (a : ℂ)).op (A.db / a) ψ - (ψ - (Complex.I * ((A.db / a : ℝ) : ℂ)) • pauliComb (A.chosen σ ψ) (x.map (a * ·)) ψ)) ≤
      nrm A.nqb (imagStep A.nqb (A.ham.multCoeffs (a : ℂ)).op (A.db / a) ψ - (ψ - (Complex.I * ((A.db / a : ℝ) : ℂ)) • pauliComb (A.chosen σ ψ) y ψ))
    rw [scaled_op, imagStep_units ha.ne', comb, hyy, comb]
    exact h2 _ (by rw [List.length_map, hy])
  · rw [hc]
    intro i hi
    have e := h.solves i hi
    show _ = rhsElem A.nqb (A.ham.multCoeffs (a : ℂ)).op (A.db / a) ψ _
    rw [scaled_op, rhs_units ha.ne', ← e, Finset.mul_sum]
    refine Finset.sum_congr rfl fun j _ => ?_
    have : (x.map (a * ·)).getD j 0 = a * x.getD j 0 := by
      rw [List.getD_eq_getElem?_getD, List.getD_eq_getElem?_getD, List.getElem?_map]
      cases x[j]? <;> simp
    rw [this]
    show (inner A.nqb _ _).re * _ = _
    ring
  · rw [hc, kept_units A ha]
    exact trotter_units ha.ne' h.evolved

end QiteAlg

/-- C121, a concrete case of the hypotheses of `C121_srqk`: the two-qubit instance of C116, in a unit half as large -/
theorem C121_example {eig : EigOracle} (hE : DescEig eig) : ({ sectorQk with nstates := 2 } : QkAlg).Ready ∧ ∃ R R', ({ sectorQk with nstates := 2 } : QkAlg).srqkRun eig 0 = .ok R ∧
    (({ sectorQk with nstates := 2 } : QkAlg).inUnits 2).srqkRun eig 0 = .ok R' ∧ R'.egs = 2 * R.egs ∧ R.egs ≤ -2 := by
  obtain ⟨-, -, S, H, -, R, e, hfull, -, r, -, hle⟩ := C116_example hE
  have hr' : (({ sectorQk with nstates := 2 } : QkAlg).inUnits 2).Ready := ⟨(sectorQk_ready 2).prep, scaled_ready 2 (sectorQk_ready 2).ham, (sectorQk_ready 2).steps⟩
  have hp : ∀ g ∈ sectorQk.uprep, ApiGate g := by
    intro g hg
    simp only [sectorQk, List.mem_cons, List.not_mem_nil, or_false] at hg
    rcases hg with rfl | rfl
    · exact .make (pauliGate_X 0).make
    · exact .make (pauliGate_X 1).make
  obtain ⟨S0, H0, ψ0, e0, hψ0, hM0⟩ := C77_srqk _ (sectorQk_ready 2) (by decide)
  obtain ⟨S1, H1, ψ1, e1, hψ1, hM1⟩ := C77_srqk _ hr' (by decide)
  rw [e] at e0; cases e0
  have hsame : ∀ p, ψ1 p = ψ0 p := fun p => trotter_scaled two_ne_zero (by simp only [QkAlg.inUnits]; ring) (hψ0 p) (hψ1 p)
  have hfull' := full_phase hE (fun i hi j hj => (hM0 i hi j hj).1) (fun i hi j hj => (hM1 i hi j hj).1) (k := 2) (fun p _ => ⟨1, by simp, by rw [one_smul, hsame]⟩) _ hfull
  obtain ⟨S2, H2, ψ2, rank, e2, hr, -, -, run, -⟩ := C83_srqk hE _ hr' hp (by decide) 0
  obtain ⟨S3, H3, ψ3, rank3, e3, hr3, -, -, run3, -⟩ := C83_srqk hE _ (sectorQk_ready 2) hp (by decide) 0
  rw [e1] at e2; cases e2
  have h2 : ∀ i < 2, ∀ j < 2, (starRingEnd ℂ) (S1 i j) = S1 j i := fun i hi j hj => by rw [(hM1 i hi j hj).1, (hM1 j hj i hi).1, inner_conj]
  have hk : rank = 2 := by
    rw [hr, List.filter_eq_self.2 (by intro z hz; simpa using hfull' z hz)]
    exact (hE 2 S1 h2).1.1
  obtain ⟨R', r', ok', -⟩ := run (by omega)
  have hs := C121_srqk hE _ (sectorQk_ready 2) (by decide) two_pos r r'
  refine ⟨sectorQk_ready 2, R, R', r, r', ?_, hle⟩
  have g' := ok'.ground
  rw [hs, List.getElem?_map] at g'
  rw [e] at e3; cases e3
  have h3 : ∀ i < 2, ∀ j < 2, (starRingEnd ℂ) (S i j) = S j i := fun i hi j hj => by rw [(hM0 i hi j hj).1, (hM0 j hj i hi).1, inner_conj]
  have hk3 : rank3 = 2 := by
    rw [hr3, List.filter_eq_self.2 (by intro z hz; simpa using hfull z hz)]
    exact (hE 2 S h3).1.1
  obtain ⟨R3, r3, ok3, -⟩ := run3 (by omega)
  rw [r] at r3; cases r3
  rw [ok3.ground, Option.map_some, Option.some.injEq] at g'
  exact_mod_cast g'.symm

end QF
