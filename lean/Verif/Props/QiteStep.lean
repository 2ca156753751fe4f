import Verif.Lemmas.NearOne
import Verif.Props.QiteExample

/-!
C105: how much a step of quantum imaginary time evolution lowers the energy, for the time step that is actually taken.
-/
namespace QF
namespace QiteAlg

/-- the sum of the absolute coefficients that `x_thresh` discards -/
noncomputable def discarded (A : QiteAlg) (x : List ℝ) : ℝ := ((x.filter fun a => open Classical in decide (|a| ≤ A.xThresh)).map fun a => |a|).sum

theorem discarded_nonneg (A : QiteAlg) (x : List ℝ) : 0 ≤ A.discarded x := by
  refine List.sum_nonneg fun a ha => ?_
  obtain ⟨t, -, rfl⟩ := List.mem_map.1 ha
  exact abs_nonneg _

theorem discarded_all {A : QiteAlg} {x : List ℝ} (h : ∀ a ∈ x, A.xThresh < |a|) : A.discarded x = 0 := by
  unfold discarded
  rw [List.filter_eq_nil_iff.2 fun a ha => by simpa using h a ha]; rfl

/-- the slope of the energy in a step -/
theorem step_slope {A : QiteAlg} {σ : List Circuit} (hσ : ∀ c ∈ σ, c.PauliString A.nqb) {ψ χ : St}
    (hc : 0 < 1 - 2 * A.db * energy A.nqb A.ham.op ψ) {x : List ℝ} (hs : IsStep A σ ψ χ x) :
    2 * (inner A.nqb (A.ham.op ψ) (-Complex.I • pauliComb (A.chosen σ ψ) x ψ)).re =
      -2 * Real.sqrt (1 - 2 * A.db * energy A.nqb A.ham.op ψ) * nrm A.nqb (pauliComb (A.chosen σ ψ) x ψ) ^ 2 := by
  set s := Real.sqrt (1 - 2 * A.db * energy A.nqb A.ham.op ψ) with hsdef
  have hs0 : 0 < s := Real.sqrt_pos.2 hc
  set C := A.chosen σ ψ with hC
  have hCσ : ∀ c ∈ C, c.PauliString A.nqb := fun c h => hσ c (sparse_sub c h)
  have hl : x.length = C.length := hs.nearest.1
  have mem : ∀ i < C.length, C.getD i [] ∈ C := fun i hi => by
    rw [List.getD_eq_getElem?_getD, List.getElem?_eq_getElem hi]; exact List.getElem_mem hi
  set v : ℕ → St := fun i => (C.getD i []).op ψ with hv
  set y : ℕ → ℝ := fun i => x.getD i 0 with hy
  have hcomb : pauliComb C x ψ = rcomb C.length v y := comb_eq C x hl ψ
  have hb : ∀ i < C.length, (inner A.nqb (v i) (rcomb C.length v y)).re = rhsElem A.nqb A.ham.op A.db ψ (C.getD i []) := by
    intro i hi
    rw [rcomb_inner_right, ← hs.solves i hi]
    exact Finset.sum_congr rfl fun j _ => mul_comm _ _
  have e1 : inner A.nqb (A.ham.op ψ) (-Complex.I • pauliComb C x ψ) = inner A.nqb (Complex.I • A.ham.op ψ) (pauliComb C x ψ) := by
    unfold inner
    refine Finset.sum_congr rfl fun I _ => ?_
    simp only [Pi.smul_apply, smul_eq_mul, map_mul, Complex.conj_I]; ring
  rw [e1, re_inner_comm, nrm_sq_re, hcomb, rcomb_inner_left, rcomb_inner_left, Finset.mul_sum, Finset.mul_sum]
  refine Finset.sum_congr rfl fun i hi => ?_
  have hi := Finset.mem_range.1 hi
  rw [hb i hi, inner_smul_right, Complex.I_mul_re, hv, ← pauli_herm (hCσ _ (mem i hi))]
  unfold rhsElem
  rw [← hsdef]
  field_simp

theorem kept_near {A : QiteAlg} {n : ℕ} {C : List Circuit} (hC : ∀ c ∈ C, c.PauliString n) (x : List ℝ) (ψ : St) :
    nrm n ((A.kept C x).op ψ - pauliComb C x ψ) ≤ A.discarded x * nrm n ψ ∧ coeffSum (A.kept C x) ≤ (x.map fun a => |a|).sum := by
  classical
  induction C generalizing x with
  | nil =>
    have h1 : (A.kept [] x) = [] := by unfold kept; simp
    rw [h1]
    refine ⟨?_, ?_⟩
    · have h2 : pauliComb [] x ψ = 0 := by unfold pauliComb; simp
      rw [h2]
      simp only [QubitOperator.op, List.map_nil, List.sum_nil, LinearMap.zero_apply, sub_zero, nrm_zero]
      exact mul_nonneg (discarded_nonneg A x) (nrm_nonneg' n ψ)
    · simp only [coeffSum, List.map_nil, List.sum_nil]
      refine List.sum_nonneg fun a ha => ?_
      obtain ⟨t, -, rfl⟩ := List.mem_map.1 ha
      exact abs_nonneg _
  | cons c C ih =>
    cases x with
    | nil =>
      have h1 : (A.kept (c :: C) []) = [] := by unfold kept; simp
      rw [h1]
      simp [QubitOperator.op, pauliComb, nrm_zero, coeffSum, discarded]
    | cons a x =>
      obtain ⟨i1, i2⟩ := ih (fun c hc => hC c (by simp [hc])) x
      have hc := hC c (by simp)
      have hn : nrm n (Circuit.op c ψ) = nrm n ψ := nrm_circuit hc.fits (fun g hg => C02_unitary (.make (hc.gates g hg).make)) ψ
      have e3 : pauliComb (c :: C) (a :: x) ψ = ((a : ℝ) : ℂ) • c.op ψ + pauliComb C x ψ := by
        unfold pauliComb; simp
      by_cases h : A.xThresh < |a|
      · have e1 : A.kept (c :: C) (a :: x) = (((a : ℝ) : ℂ), c) :: A.kept C x := by
          unfold kept; rw [List.zip_cons_cons, List.filter_cons_of_pos (by simpa using h)]; rfl
        have e2 : A.discarded (a :: x) = A.discarded x := by
          unfold discarded; rw [List.filter_cons_of_neg (by simpa using h)]
        have e : QubitOperator.op ((((a : ℝ) : ℂ), c) :: A.kept C x) = ((a : ℝ) : ℂ) • c.op + QubitOperator.op (A.kept C x) := by simp [QubitOperator.op]
        rw [e1, e2, e3, e]
        refine ⟨?_, ?_⟩
        · rw [LinearMap.add_apply, LinearMap.smul_apply, add_sub_add_left_eq_sub]; exact i1
        · unfold coeffSum at *
          rw [List.map_cons, List.sum_cons, List.map_cons, List.sum_cons, Complex.norm_real, Real.norm_eq_abs]
          linarith
      · have e1 : A.kept (c :: C) (a :: x) = A.kept C x := by
          unfold kept; rw [List.zip_cons_cons, List.filter_cons_of_neg (by simpa using h)]
        have e2 : A.discarded (a :: x) = |a| + A.discarded x := by
          unfold discarded; rw [List.filter_cons_of_pos (by simpa using h)]; rfl
        rw [e1, e2, e3]
        refine ⟨?_, ?_⟩
        · have : (A.kept C x).op ψ - (((a : ℝ) : ℂ) • c.op ψ + pauliComb C x ψ) = ((A.kept C x).op ψ - pauliComb C x ψ) + (-((a : ℝ) : ℂ)) • c.op ψ := by module
          rw [this]
          refine (nrm_add_le _ _ _).trans ?_
          rw [nrm_smul, hn, norm_neg, Complex.norm_real, Real.norm_eq_abs]
          linarith
        · rw [List.map_cons, List.sum_cons]
          have := abs_nonneg a
          linarith

theorem kept_real {A : QiteAlg} {n : ℕ} {σ : List Circuit} (hσ : ∀ c ∈ σ, c.PauliString n) (x : List ℝ) : ∀ t ∈ A.kept σ x, t.1.im = 0 ∧ t.2.PauliString n := by
  intro t ht
  refine ⟨?_, kept_strings hσ x t ht⟩
  obtain ⟨p, -, rfl⟩ := List.mem_map.1 ht
  simp

/-- C105: the energy after a step of imaginary time `db` is that before it minus `2 db √c |Σ x σ ψ|²`, up to an error of second order in `db` and the discarded coefficients.
`coeffSum H` is the sum of the moduli of the coefficients of `H`. -/
theorem C105_step {A : QiteAlg} (hA : A.Ready) (hN : 1 ≤ A.trotterNumber) {σ : List Circuit} (hσ : ∀ c ∈ σ, c.PauliString A.nqb) {ψ χ : St}
    (hψ : inner A.nqb ψ ψ = 1) (hc : 0 < 1 - 2 * A.db * energy A.nqb A.ham.op ψ) {x : List ℝ} (hs : IsStep A σ ψ χ x) :
    |energy A.nqb A.ham.op χ - (energy A.nqb A.ham.op ψ -
        2 * A.db * Real.sqrt (1 - 2 * A.db * energy A.nqb A.ham.op ψ) * nrm A.nqb (pauliComb (A.chosen σ ψ) x ψ) ^ 2)| ≤
      2 * coeffSum A.ham * (A.db * (x.map fun a => |a|).sum) ^ 2 + 2 * coeffSum A.ham * |A.db| * A.discarded x := by
  set n := A.nqb
  set h := coeffSum A.ham with hh
  have h0 : 0 ≤ h := coeffSum_nonneg _
  have hCσ : ∀ c ∈ A.chosen σ ψ, c.PauliString n := fun c h => hσ c (sparse_sub c h)
  have hH : HermitianOn n A.ham.op := hermitian_of_real hA.ham
  have hB : Bd n A.ham.op h := coeffSum_bd fun t ht => (hA.ham t ht).2
  have hψ1 : nrm n ψ = 1 := by
    have : nrm n ψ ^ 2 = 1 := by rw [nrm_sq_re, hψ]; rfl
    nlinarith [nrm_nonneg' n ψ]
  have slope := step_slope hσ hc hs
  set P := pauliComb (A.chosen σ ψ) x ψ with hP
  set s := Real.sqrt (1 - 2 * A.db * energy n A.ham.op ψ)
  obtain ⟨k1, k2⟩ := kept_near (A := A) hCσ x ψ
  rw [hψ1, mul_one] at k1
  set Kp := A.kept (A.chosen σ ψ) x with hKp
  obtain ⟨Us, u1, u2⟩ := hs.evolved
  have hU := NearOne.trotter (kept_real hCσ x) hN A.db u1
  set U := applyInOrder Us ^ A.trotterNumber.toNat
  set Θ := |A.db| * coeffSum Kp with hΘ
  have f1 := hU.first ψ
  have f2 := hU.second ψ
  rw [hψ1, mul_one] at f1 f2
  set δ := (U - 1) ψ with hδ
  set R := (U - 1 - (-Complex.I * A.db) • Kp.op) ψ with hR
  have hχ : χ = ψ + δ := by rw [u2, hδ, LinearMap.sub_apply, Module.End.one_apply]; abel
  have hdec : δ = R + ((A.db : ℂ) • (-Complex.I • P) + (-Complex.I * A.db) • (Kp.op ψ - P)) := by
    rw [hδ, hR, LinearMap.sub_apply, LinearMap.sub_apply, LinearMap.smul_apply, LinearMap.sub_apply]
    module
  have hHψ : nrm n (A.ham.op ψ) ≤ h := by have := hB ψ; rwa [hψ1, mul_one] at this
  have E : energy n A.ham.op χ = energy n A.ham.op ψ + 2 * (inner n (A.ham.op ψ) δ).re + (inner n δ (A.ham.op δ)).re := by
    unfold energy
    have e1 : inner n (ψ + δ) (A.ham.op (ψ + δ)) = inner n ψ (A.ham.op ψ) + inner n (A.ham.op ψ) δ + inner n δ (A.ham.op ψ) + inner n δ (A.ham.op δ) := by
      rw [← hH ψ δ, map_add]
      unfold inner
      rw [← Finset.sum_add_distrib, ← Finset.sum_add_distrib, ← Finset.sum_add_distrib]
      refine Finset.sum_congr rfl fun I _ => ?_
      simp only [Pi.add_apply, map_add]; ring
    rw [hχ, e1, Complex.add_re, Complex.add_re, Complex.add_re, re_inner_comm n δ]
    ring
  have e2 : (inner n (A.ham.op ψ) δ).re = (inner n (A.ham.op ψ) R).re + A.db * (inner n (A.ham.op ψ) (-Complex.I • P)).re +
      (inner n (A.ham.op ψ) ((-Complex.I * A.db) • (Kp.op ψ - P))).re := by
    rw [hdec]
    have : inner n (A.ham.op ψ) (R + ((A.db : ℂ) • (-Complex.I • P) + (-Complex.I * A.db) • (Kp.op ψ - P))) =
        inner n (A.ham.op ψ) R + (A.db : ℂ) * inner n (A.ham.op ψ) (-Complex.I • P) + inner n (A.ham.op ψ) ((-Complex.I * A.db) • (Kp.op ψ - P)) := by
      unfold inner
      rw [Finset.mul_sum, ← Finset.sum_add_distrib, ← Finset.sum_add_distrib]
      refine Finset.sum_congr rfl fun I _ => ?_
      simp only [Pi.add_apply, Pi.smul_apply, smul_eq_mul]; ring
    rw [this, Complex.add_re, Complex.add_re, Complex.re_ofReal_mul]
  have b1 : |(inner n (A.ham.op ψ) R).re| ≤ h * (Θ ^ 2 / 2) :=
    (Complex.abs_re_le_norm _).trans ((inner_le _ _ _).trans (mul_le_mul hHψ f2 (nrm_nonneg' _ _) h0))
  have b2 : |(inner n (A.ham.op ψ) ((-Complex.I * A.db) • (Kp.op ψ - P))).re| ≤ h * (|A.db| * A.discarded x) := by
    refine (Complex.abs_re_le_norm _).trans ((inner_le _ _ _).trans (mul_le_mul hHψ ?_ (nrm_nonneg' _ _) h0))
    rw [nrm_smul, norm_mul, norm_neg, Complex.norm_I, one_mul, Complex.norm_real, Real.norm_eq_abs]
    exact mul_le_mul_of_nonneg_left k1 (abs_nonneg _)
  have b3 : |(inner n δ (A.ham.op δ)).re| ≤ h * Θ ^ 2 := by
    refine (Complex.abs_re_le_norm _).trans ((inner_le _ _ _).trans ?_)
    have q1 := hB δ
    have q2 := mul_le_mul f1 (q1.trans (mul_le_mul_of_nonneg_left f1 h0)) (nrm_nonneg' _ _) hU.nonneg
    nlinarith
  have b4 : Θ ^ 2 ≤ (A.db * (x.map fun a => |a|).sum) ^ 2 := by
    rw [hΘ, mul_pow, mul_pow, sq_abs]
    refine mul_le_mul_of_nonneg_left ?_ (sq_nonneg _)
    have := coeffSum_nonneg Kp
    nlinarith
  have b5 := mul_le_mul_of_nonneg_left b4 h0
  have sl : A.db * (inner n (A.ham.op ψ) (-Complex.I • P)).re = -(A.db * s * nrm n P ^ 2) := by
    have := congrArg (fun r => A.db * r / 2) slope
    rw [show A.db * (2 * (inner A.nqb (A.ham.op ψ) (-Complex.I • P)).re) / 2 = A.db * (inner n (A.ham.op ψ) (-Complex.I • P)).re by ring] at this
    rw [this]; ring
  rw [E, e2, sl]
  rw [abs_le] at b1 b2 b3 ⊢
  have r1 : 2 * A.db * s * nrm n P ^ 2 = 2 * (A.db * s * nrm n P ^ 2) := by ring
  have r2 : 2 * h * (A.db * (x.map fun a => |a|).sum) ^ 2 = 2 * (h * (A.db * (x.map fun a => |a|).sum) ^ 2) := by ring
  have r3 : 2 * h * |A.db| * A.discarded x = 2 * (h * (|A.db| * A.discarded x)) := by ring
  have r4 : h * (Θ ^ 2 / 2) = h * Θ ^ 2 / 2 := by ring
  rw [r1, r2, r3]
  rw [r4] at b1
  constructor <;> linarith [b1.1, b1.2, b2.1, b2.2, b3.1, b3.2]

theorem energy_phase (n : ℕ) (H : Op) {z : ℂ} (hz : ‖z‖ = 1) (ψ : St) : energy n H (z • ψ) = energy n H ψ := by
  unfold energy
  have : inner n (z • ψ) (H (z • ψ)) = inner n ψ (H ψ) := by
    rw [map_smul]
    unfold inner
    refine Finset.sum_congr rfl fun I _ => ?_
    simp only [Pi.smul_apply, smul_eq_mul, map_mul]
    have : (starRingEnd ℂ) z * z = 1 := by rw [mul_comm, Complex.mul_conj, Complex.normSq_eq_norm_sq, hz]; norm_num
    linear_combination (starRingEnd ℂ (ψ I) * H ψ I) * this
  rw [this]

theorem energy_abs_le {n : ℕ} {H : QubitOperator} (h : ∀ t ∈ H, t.2.PauliString n) {ψ : St} (hψ : inner n ψ ψ = 1) : |energy n H.op ψ| ≤ coeffSum H := by
  have hψ1 : nrm n ψ = 1 := by
    have : nrm n ψ ^ 2 = 1 := by rw [nrm_sq_re, hψ]; rfl
    nlinarith [nrm_nonneg' n ψ]
  refine (Complex.abs_re_le_norm _).trans ((inner_le _ _ _).trans ?_)
  have := coeffSum_bd h ψ
  rw [hψ1, mul_one] at this
  rw [hψ1, one_mul]; exact this

/-- C105: a condition on the time step under which a step does not raise the energy.  `l` bounds the overlap matrix of the chosen strings from below: `l Σ y² ≤ |Σ y σ ψ|²`. -/
theorem C105_lowers {A : QiteAlg} (hA : A.Ready) (hN : 1 ≤ A.trotterNumber) {σ : List Circuit} (hσ : ∀ c ∈ σ, c.PauliString A.nqb) {ψ χ : St}
    (hψ : inner A.nqb ψ ψ = 1) {x : List ℝ} (hs : IsStep A σ ψ χ x) (hx : ∀ a ∈ x, A.xThresh < |a|) (hdb : 0 < A.db) {l : ℝ}
    (hl : ∀ y : List ℝ, y.length = (A.chosen σ ψ).length → l * (y.map fun a => a ^ 2).sum ≤ nrm A.nqb (pauliComb (A.chosen σ ψ) y ψ) ^ 2)
    (h1 : 2 * A.db * coeffSum A.ham < 1) (h2 : 2 * A.db * (A.chosen σ ψ).length * coeffSum A.ham ≤ l * Real.sqrt (1 - 2 * A.db * coeffSum A.ham)) :
    energy A.nqb A.ham.op χ ≤ energy A.nqb A.ham.op ψ - A.db * Real.sqrt (1 - 2 * A.db * coeffSum A.ham) * nrm A.nqb (pauliComb (A.chosen σ ψ) x ψ) ^ 2 := by
  have hE := energy_abs_le (fun t ht => (hA.ham t ht).2) hψ
  have hE2 := (abs_le.1 hE).2
  have hm : 2 * A.db * energy A.nqb A.ham.op ψ ≤ 2 * A.db * coeffSum A.ham := mul_le_mul_of_nonneg_left hE2 (by linarith)
  have hstep := (abs_le.1 (C105_step hA hN hσ hψ (by linarith) hs)).2
  rw [discarded_all hx, mul_zero, add_zero] at hstep
  have hlen : x.length = (A.chosen σ ψ).length := hs.nearest.1
  have hg := hl x hlen
  have hsq : (x.map fun a => |a|).sum ^ 2 ≤ x.length * (x.map fun a => a ^ 2).sum := by
    have := sq_sum_le_card_mul_sum_sq (s := Finset.univ) (f := fun i : Fin x.length => |x[i]|)
    simp only [Finset.card_univ, Fintype.card_fin, sq_abs] at this
    have e1 : (x.map fun a => |a|).sum = ∑ i : Fin x.length, |x[i]| := (Fin.sum_univ_fun_getElem x fun a => |a|).symm
    have e2 : (x.map fun a => a ^ 2).sum = ∑ i : Fin x.length, x[i] ^ 2 := (Fin.sum_univ_fun_getElem x fun a => a ^ 2).symm
    rw [e1, e2]; exact this
  set N2 := nrm A.nqb (pauliComb (A.chosen σ ψ) x ψ) ^ 2 with hN2
  set s0 := Real.sqrt (1 - 2 * A.db * coeffSum A.ham) with hs0
  set s := Real.sqrt (1 - 2 * A.db * energy A.nqb A.ham.op ψ) with hs1
  have hss : s0 ≤ s := Real.sqrt_le_sqrt (by linarith)
  have hs0' : 0 ≤ s0 := Real.sqrt_nonneg _
  have hN0 : 0 ≤ N2 := by positivity
  have hh0 := coeffSum_nonneg A.ham
  set X := (x.map fun a => |a|).sum
  set Q := (x.map fun a => a ^ 2).sum
  have hQ : 0 ≤ Q := List.sum_nonneg fun a ha => by obtain ⟨t, -, rfl⟩ := List.mem_map.1 ha; positivity
  rw [hlen] at hsq
  have p1 : 2 * coeffSum A.ham * (A.db * X) ^ 2 ≤ A.db * (2 * A.db * (A.chosen σ ψ).length * coeffSum A.ham) * Q := by
    have := mul_le_mul_of_nonneg_left hsq (by positivity : 0 ≤ 2 * coeffSum A.ham * A.db ^ 2)
    nlinarith
  have p2 : A.db * (2 * A.db * (A.chosen σ ψ).length * coeffSum A.ham) * Q ≤ A.db * (l * s0) * Q :=
    mul_le_mul_of_nonneg_right (mul_le_mul_of_nonneg_left h2 hdb.le) hQ
  have p3 : A.db * (l * s0) * Q ≤ A.db * s0 * N2 := by
    have := mul_le_mul_of_nonneg_left hg (mul_nonneg hdb.le hs0')
    nlinarith
  have p4 : A.db * s0 * N2 ≤ A.db * s * N2 := mul_le_mul_of_nonneg_right (mul_le_mul_of_nonneg_left hss hdb.le) hN0
  have r : 2 * A.db * s * N2 = 2 * (A.db * s * N2) := by ring
  rw [r] at hstep
  linarith

/-- C105: the energies that a run records never increase, if the time step is small enough for the overlap matrices that occur -/
theorem C105_run {A : QiteAlg} (hA : A.Ready) (hN : 1 ≤ A.trotterNumber) {σ : List Circuit} (hσ : ∀ c ∈ σ, c.PauliString A.nqb) {K : ℕ} {st : QiteState}
    {ψ : ℕ → St} {x : ℕ → List ℝ} {ph : ℕ → ℂ} (h : A.Trajectory σ K st ψ x ph) (hx : ∀ k < K, ∀ a ∈ x k, A.xThresh < |a|) (hdb : 0 < A.db) {l : ℝ}
    (hl : ∀ k < K, ∀ y : List ℝ, y.length = (A.chosen σ (ψ k)).length → l * (y.map fun a => a ^ 2).sum ≤ nrm A.nqb (pauliComb (A.chosen σ (ψ k)) y (ψ k)) ^ 2)
    (h1 : 2 * A.db * coeffSum A.ham < 1) (h2 : 2 * A.db * σ.length * coeffSum A.ham ≤ l * Real.sqrt (1 - 2 * A.db * coeffSum A.ham)) :
    st.ekb.length = K + 1 ∧ st.ekb.Pairwise (· ≥ ·) := by
  have mono : ∀ k < K, energy A.nqb A.ham.op (ψ (k + 1)) ≤ energy A.nqb A.ham.op (ψ k) := by
    intro k hk
    obtain ⟨hs, hp⟩ := h.step k hk
    have hlen : ((A.chosen σ (ψ k)).length : ℝ) ≤ σ.length := by
      have : (A.chosen σ (ψ k)).length ≤ σ.length := by
        unfold chosen
        split_ifs
        · simp
        · exact List.length_filter_le _ _
        · rfl
      exact_mod_cast this
    have h2' : 2 * A.db * (A.chosen σ (ψ k)).length * coeffSum A.ham ≤ 2 * A.db * σ.length * coeffSum A.ham :=
      mul_le_mul_of_nonneg_right (mul_le_mul_of_nonneg_left hlen (by linarith)) (coeffSum_nonneg _)
    have := C105_lowers hA hN hσ (h.norm k hk.le) hs (hx k hk) hdb (hl k hk) h1 (h2'.trans h2)
    rw [energy_phase _ _ hp] at this
    have q : 0 ≤ A.db * Real.sqrt (1 - 2 * A.db * coeffSum A.ham) * nrm A.nqb (pauliComb (A.chosen σ (ψ k)) (x k) (ψ k)) ^ 2 := by positivity
    linarith
  rw [h.ekb]
  refine ⟨by simp, ?_⟩
  rw [List.pairwise_map]
  refine List.Pairwise.imp_of_mem (R := (· < ·)) ?_ List.pairwise_lt_range
  intro a b _ hb hab
  have hb := List.mem_range.1 hb
  obtain ⟨d, rfl⟩ := Nat.exists_eq_add_of_lt hab
  induction d with
  | zero => exact mono a (by omega)
  | succ d ih => exact (mono (a + d + 1) (by omega)).trans (ih (by simp; omega) (by omega) (by omega))

/-- C105, a concrete case: `H = X` on one qubit from `|0⟩` with the pool `Y` and `db = 1/5`.  All hypotheses hold with `l = 1`, so the energies of every run of this kind never
increase, and the first step lowers the energy by at least `(1/5) √(3/5)`. -/
theorem C105_example {ls : LstsqOracle} (hls : IsLstsq ls) (nb : ℕ) :
    ∃ st ψ x ph, demo.evolve ls none (poolOf [[gY 0]]) (energy 1 demo.ham.op demo.reference) (nb + 2) = .ok st ∧ demo.Trajectory [[gY 0]] (nb + 1) st ψ x ph ∧
      st.ekb.length = nb + 2 ∧ st.ekb.Pairwise (· ≥ ·) ∧ ∃ E, st.ekb[1]? = some E ∧ E ≤ -(1 / 5 * Real.sqrt (3 / 5)) := by
  have hY : ∀ c ∈ [[gY 0]], Circuit.PauliString demo.nqb c := by
    intro c hc
    obtain rfl := List.mem_singleton.1 hc
    exact canonical_pauliString demo_canonical (by simp [gY, demo])
  obtain ⟨st, ψ, x, ph, e, h⟩ := C82_evolve demo_ready hls (par := none) (.inl rfl) (by norm_num [demo]) hY (.inl rfl) (fun _ => by decide) (nb + 2 : ℤ)
  have hK : ((nb + 2 : ℤ) - 1).toNat = nb + 1 := by omega
  rw [hK] at h
  have hh : coeffSum demo.ham = 1 := by simp [coeffSum, demo]
  have hdb : demo.db = 1 / 5 := rfl
  have hsub : ∀ φ, demo.chosen [[gY 0]] φ = [] ∨ demo.chosen [[gY 0]] φ = [[gY 0]] := by
    intro φ
    unfold chosen
    rw [if_pos (by rfl)]
    split_ifs
    · exact .inl rfl
    · rw [List.filter_singleton]
      cases decide (demo.bThresh < |rhsElem demo.nqb demo.ham.op demo.db φ [gY 0]|)
      · exact .inl rfl
      · exact .inr rfl
  have hcomb : ∀ (a : ℝ) (φ : St), nrm demo.nqb (pauliComb [[gY 0]] [a] φ) ^ 2 = a ^ 2 * nrm demo.nqb φ ^ 2 := by
    intro a φ
    have hc := hY _ (List.mem_singleton.2 rfl)
    have hn : nrm demo.nqb (Circuit.op [gY 0] φ) = nrm demo.nqb φ := nrm_circuit hc.fits (fun g hg => C02_unitary (.make (hc.gates g hg).make)) φ
    have : pauliComb [[gY 0]] [a] φ = ((a : ℝ) : ℂ) • Circuit.op [gY 0] φ := by unfold pauliComb; simp
    rw [this, nrm_smul, hn, Complex.norm_real, Real.norm_eq_abs, mul_pow, sq_abs]
  have hunit : ∀ φ, inner demo.nqb φ φ = 1 → nrm demo.nqb φ ^ 2 = 1 := fun φ hφ => by rw [nrm_sq_re, hφ]; rfl
  have hl : ∀ φ, inner demo.nqb φ φ = 1 → ∀ y : List ℝ, y.length = (demo.chosen [[gY 0]] φ).length →
      1 * (y.map fun a => a ^ 2).sum ≤ nrm demo.nqb (pauliComb (demo.chosen [[gY 0]] φ) y φ) ^ 2 := by
    intro φ hφ y hy
    rcases hsub φ with e | e <;> rw [e] at hy ⊢
    · obtain rfl := List.length_eq_zero_iff.1 hy
      simp [pauliComb, nrm_zero]
    · obtain ⟨a, rfl⟩ := List.length_eq_one_iff.1 hy
      rw [hcomb, hunit φ hφ]; simp
  have hval : ∀ φ χ y, inner demo.nqb φ φ = 1 → IsStep demo [[gY 0]] φ χ y → demo.chosen [[gY 0]] φ = [[gY 0]] → y = [rhsElem demo.nqb demo.ham.op demo.db φ [gY 0]] := by
    intro φ χ y hφ hs e
    have hy : y.length = _ := hs.nearest.1
    have h0 := hs.solves 0 (by rw [e]; simp)
    rw [e] at hy h0
    obtain ⟨a, rfl⟩ := List.length_eq_one_iff.1 hy
    have hc := hY _ (List.mem_singleton.2 rfl)
    have hn : nrm demo.nqb (Circuit.op [gY 0] φ) = nrm demo.nqb φ := nrm_circuit hc.fits (fun g hg => C02_unitary (.make (hc.gates g hg).make)) φ
    simp only [List.length_singleton, Finset.sum_range_one, List.getD_cons_zero] at h0
    rw [← nrm_sq_re, hn, hunit φ hφ, one_mul] at h0
    rw [h0]
  have hx : ∀ k < nb + 1, ∀ a ∈ x k, demo.xThresh < |a| := by
    intro k hk a ha
    obtain ⟨hs, -⟩ := h.step k hk
    rcases hsub (ψ k) with e | e
    · have := hs.nearest.1
      rw [e] at this
      rw [List.length_eq_zero_iff.1 this] at ha
      cases ha
    · rw [hval _ _ _ (h.norm k (by omega)) hs e] at ha
      obtain rfl := List.mem_singleton.1 ha
      have hm : [gY 0] ∈ demo.chosen [[gY 0]] (ψ k) := by rw [e]; simp
      unfold chosen at hm
      rw [if_pos (by rfl)] at hm
      split_ifs at hm with hcc
      · cases hm
      · have := (List.mem_filter.1 hm).2
        have := of_decide_eq_true this
        refine lt_trans ?_ this
        norm_num [demo]
  have hsq : (1 - 2 * demo.db * coeffSum demo.ham) = 3 / 5 := by rw [hh, hdb]; norm_num
  have h35 : (2 : ℝ) / 5 ≤ Real.sqrt (3 / 5) := Real.le_sqrt_of_sq_le (by norm_num)
  have hmono := C105_run demo_ready (by decide) hY h hx (by norm_num [demo]) (l := 1) (fun k hk => hl _ (h.norm k (by omega))) (by rw [hh, hdb]; norm_num)
    (by rw [hsq, hh, hdb]; simpa using (by norm_num : (2 : ℝ) * (1 / 5) = 2 / 5).le.trans h35)
  refine ⟨st, ψ, x, ph, e, h, hmono.1, hmono.2, energy demo.nqb demo.ham.op (ψ 1), ?_, ?_⟩
  · rw [h.ekb]; simp
  · have hE : energy demo.nqb demo.ham.op demo.reference = 0 := demo_energy
    have hr : rhsElem demo.nqb demo.ham.op demo.db demo.reference [gY 0] = -1 := demo_rhs
    have hch : demo.chosen [[gY 0]] (ψ 0) = [[gY 0]] := by
      rw [h.start]
      unfold chosen
      rw [if_pos (by rfl), if_neg (by rw [hE]; norm_num), List.filter_singleton, hr, decide_eq_true (by norm_num [demo])]; rfl
    obtain ⟨hs, hp⟩ := h.step 0 (by omega)
    have h3 := C105_lowers demo_ready (by decide) hY (h.norm 0 (by omega)) hs (hx 0 (by omega)) (by norm_num [demo]) (l := 1) (hl _ (h.norm 0 (by omega))) (by rw [hh, hdb]; norm_num)
      (by rw [hsq, hh, hdb, hch]; simpa using (by norm_num : (2 : ℝ) * (1 / 5) = 2 / 5).le.trans h35)
    have hx0 := hval _ _ _ (h.norm 0 (by omega)) hs hch
    rw [h.start, hr] at hx0
    rw [energy_phase _ _ hp, hch, hx0, hcomb, hunit _ (h.norm 0 (by omega)), hsq, h.start, hE, hdb] at h3
    linarith

end QiteAlg
end QF
