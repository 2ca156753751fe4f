import Verif.Props.QiteRun
import Verif.Props.QSD
import Verif.Lemmas.UccGrad
import Mathlib.Analysis.SpecialFunctions.Trigonometric.DerivHyp

/-!
C82: a step of quantum imaginary time evolution lowers the energy to first order.
-/
namespace QF
namespace QiteAlg

theorem circuit_onReg {n : ℕ} {c : Circuit} (hc : c.PauliString n) {ψ : St} (h : OnReg n ψ) : OnReg n (c.op ψ) := by
  have hw : ((Computer.init n).setCoeffVec ((List.range (2 ^ n)).map ψ)).WF :=
    ⟨(Computer.WF.init n).nbasis, by simp [Computer.setCoeffVec, Computer.init], (Computer.WF.init n).new⟩
  have hψ : ((Computer.init n).setCoeffVec ((List.range (2 ^ n)).map ψ)).psi = ψ := by
    funext I
    show ((List.range (2 ^ n)).map ψ).getD I 0 = ψ I
    by_cases hI : I < 2 ^ n
    · rw [List.getD_eq_getElem _ _ (by simpa using hI)]; simp
    · rw [h I (by omega), List.getD_eq_default _ _ (by simpa using hI)]
  obtain ⟨q, e, w, m, f⟩ := applyCircuit_exact hw (c := c) hc.fits (fun g hg => (hc.gates g hg).exact)
  have m : q.nqubit = n := m
  rw [hψ] at f
  rw [← f, ← m]
  exact psi_onReg w

/-- the family of operators `W τ` is the identity at 0, keeps the register, and has derivative `K` at 0 -/
structure Starts (n : ℕ) (K : Op) (W : ℝ → Op) : Prop where
  zero : W 0 = 1
  reg : ∀ τ ψ, OnReg n ψ → OnReg n (W τ ψ)
  regK : ∀ ψ, OnReg n ψ → OnReg n (K ψ)
  deriv : ∀ (f : ℝ → St) (f' : St), (∀ τ, OnReg n (f τ)) → OnReg n f' → (∀ I, HasDerivAt (fun τ => f τ I) (f' I) 0) →
    ∀ I, HasDerivAt (fun τ => W τ (f τ) I) ((f' + K (f 0)) I) 0

theorem onReg_add {n : ℕ} {φ ψ : St} (h : OnReg n φ) (h' : OnReg n ψ) : OnReg n (φ + ψ) := fun I hI => by
  rw [Pi.add_apply, h I hI, h' I hI, add_zero]

theorem onReg_smul {n : ℕ} {ψ : St} (a : ℂ) (h : OnReg n ψ) : OnReg n (a • ψ) := fun I hI => by
  rw [Pi.smul_apply, h I hI, smul_zero]

theorem Starts.one (n : ℕ) : Starts n 0 fun _ => 1 :=
  ⟨rfl, fun _ _ h => h, fun ψ _ I _ => rfl, fun f f' _ _ h I => by simpa using h I⟩

theorem Starts.mul {n : ℕ} {K K' : Op} {W W' : ℝ → Op} (h : Starts n K W) (h' : Starts n K' W') : Starts n (K + K') fun τ => W' τ * W τ := by
  refine ⟨by rw [h.zero, h'.zero, one_mul], fun τ ψ hψ => h'.reg τ _ (h.reg τ _ hψ), fun ψ hψ => onReg_add (h.regK ψ hψ) (h'.regK ψ hψ), ?_⟩
  intro f f' hf hf' hd I
  have := h'.deriv (fun τ => W τ (f τ)) (f' + K (f 0)) (fun τ => h.reg τ _ (hf τ)) (onReg_add hf' (h.regK _ (hf 0))) (h.deriv f f' hf hf' hd) I
  rw [h.zero, Module.End.one_apply, add_assoc] at this
  exact this

theorem Starts.pow {n : ℕ} {K : Op} {W : ℝ → Op} (h : Starts n K W) (k : ℕ) : Starts n ((k : ℂ) • K) fun τ => W τ ^ k := by
  induction k with
  | zero => simpa using Starts.one n
  | succ k ih =>
    have := h.mul ih
    have e : K + (k : ℂ) • K = ((k + 1 : ℕ) : ℂ) • K := by push_cast; module
    rw [e] at this
    simpa only [pow_succ] using this

theorem Starts.pauli {n : ℕ} {c : Circuit} (hc : c.PauliString n) (z : ℂ) :
    Starts n (z • c.op) fun τ => Complex.cosh (z * τ) • (1 : Op) + Complex.sinh (z * τ) • c.op := by
  refine ⟨by simp, fun τ ψ hψ => onReg_add (onReg_smul _ hψ) (onReg_smul _ (circuit_onReg hc hψ)), fun ψ hψ => onReg_smul _ (circuit_onReg hc hψ), ?_⟩
  intro f f' hf hf' hd I
  have hz : HasDerivAt (fun τ : ℝ => z * (τ : ℂ)) z 0 := by
    simpa using (Complex.ofRealCLM.hasDerivAt (x := (0 : ℝ))).const_mul z
  have h1 : HasDerivAt (fun τ : ℝ => Complex.cosh (z * τ)) 0 0 := by
    have := (Complex.hasDerivAt_cosh (z * ((0 : ℝ) : ℂ))).comp (0 : ℝ) hz
    exact this.congr_deriv (by simp)
  have h2 : HasDerivAt (fun τ : ℝ => Complex.sinh (z * τ)) z 0 := by
    have := (Complex.hasDerivAt_sinh (z * ((0 : ℝ) : ℂ))).comp (0 : ℝ) hz
    exact this.congr_deriv (by simp)
  have h3 := (h1.mul (hd I)).add (h2.mul (deriv_lin c.op hf hf' hd I))
  refine h3.congr_deriv ?_
  simp

theorem trotter_starts {n : ℕ} {H : QubitOperator} (hH : ∀ t ∈ H, t.2.PauliString n) (N : ℂ) :
    ∃ W, Starts n ((-Complex.I / N) • H.op) W ∧ ∀ τ : ℝ, ∃ Us, List.Forall₂ (fun t U => IsExp ((-Complex.I * τ * t.1 / N) • t.2.op) U) H Us ∧ W τ = applyInOrder Us := by
  induction H with
  | nil => exact ⟨fun _ => 1, by simpa [QubitOperator.op] using Starts.one n, fun τ => ⟨[], .nil, rfl⟩⟩
  | cons t H ih =>
    obtain ⟨W, h1, h2⟩ := ih fun t ht => hH t (by simp [ht])
    have hc := hH t (by simp)
    have hp := Starts.pauli hc (-Complex.I * t.1 / N)
    have hi : Circuit.op t.2 * Circuit.op t.2 = 1 := ipauli_sq ⟨fun g hg => ⟨.inr (hc.gates g hg).letter, (hc.gates g hg).make⟩, hc.distinct⟩
    refine ⟨fun τ => W τ * (Complex.cosh (-Complex.I * t.1 / N * τ) • (1 : Op) + Complex.sinh (-Complex.I * t.1 / N * τ) • Circuit.op t.2), ?_, fun τ => ?_⟩
    · have := hp.mul h1
      convert! this using 1
      simp only [QubitOperator.op, List.map_cons, List.sum_cons]
      module
    · obtain ⟨Us, u1, u2⟩ := h2 τ
      refine ⟨_ :: Us, .cons (isExp_invol hi _) u1, ?_⟩
      show W τ * _ = _
      rw [u2, show -Complex.I * (τ : ℂ) * t.1 / N = -Complex.I * t.1 / N * τ by ring]; rfl

/-- the derivative of the Trotter state at `τ = 0` is `-i H Φ` -/
theorem trotter_deriv {n : ℕ} {H : QubitOperator} (hH : ∀ t ∈ H, t.2.PauliString n) {N : ℤ} (hN : 1 ≤ N) {Φ : St} (hΦ : OnReg n Φ) {χ : ℝ → St}
    (hχ : ∀ τ, TrotterState H N τ Φ (χ τ)) : (∀ τ, OnReg n (χ τ)) ∧ OnReg n (-Complex.I • H.op Φ) ∧ ∀ I, HasDerivAt (fun τ => χ τ I) ((-Complex.I • H.op Φ) I) 0 := by
  obtain ⟨W, h1, h2⟩ := trotter_starts hH (N : ℂ)
  have hp := h1.pow N.toNat
  have hN0 : (N : ℂ) ≠ 0 := by exact_mod_cast (by omega : N ≠ 0)
  have hNt : ((N.toNat : ℕ) : ℂ) = N := by
    have : ((N.toNat : ℕ) : ℤ) = N := Int.toNat_of_nonneg (by omega)
    exact_mod_cast this
  have hχ' : ∀ τ, χ τ = (W τ ^ N.toNat) Φ := by
    intro τ
    obtain ⟨Us, u1, u2⟩ := h2 τ
    exact (hχ τ).unique ⟨Us, u1, by rw [u2]⟩
  have e : ((N.toNat : ℕ) : ℂ) • (-Complex.I / (N : ℂ)) • H.op = -Complex.I • H.op := by
    rw [smul_smul, hNt]; congr 1; field_simp
  rw [e] at hp
  refine ⟨fun τ => by rw [hχ']; exact hp.reg _ _ hΦ, hp.regK _ hΦ, fun I => ?_⟩
  have := hp.deriv (fun _ => Φ) 0 (fun _ => hΦ) (fun _ _ => rfl) (fun I => by simpa using hasDerivAt_const (0 : ℝ) (Φ I)) I
  rw [zero_add] at this
  have e2 : (fun τ => χ τ I) = fun τ => (W τ ^ N.toNat) Φ I := funext fun τ => by rw [hχ']
  rw [e2]; exact this

theorem kept_all {A : QiteAlg} {σ : List Circuit} {x : List ℝ} (h : ∀ a ∈ x, A.xThresh < |a|) (ψ : St) : (A.kept σ x).op ψ = pauliComb σ x ψ := by
  unfold kept
  rw [List.filter_eq_self.2 (fun p hp => by simpa using h p.1 (List.of_mem_zip hp).1)]
  unfold QubitOperator.op pauliComb
  clear h
  induction σ generalizing x with
  | nil => simp
  | cons c σ ih =>
    cases x with
    | nil => simp
    | cons a x =>
      simp only [List.zip_cons_cons, List.map_cons, List.sum_cons, List.zipWith_cons_cons, LinearMap.add_apply, LinearMap.smul_apply]
      rw [ih]

theorem kept_strings {A : QiteAlg} {n : ℕ} {σ : List Circuit} (hσ : ∀ c ∈ σ, c.PauliString n) (x : List ℝ) : ∀ t ∈ A.kept σ x, t.2.PauliString n := by
  intro t ht
  obtain ⟨p, hp, rfl⟩ := List.mem_map.1 ht
  exact hσ _ (List.of_mem_zip (List.mem_filter.1 hp).1).2

/-- C82: with the coefficients of a step, the energy of the state after evolution for a time `τ` has the derivative `-2 √c |Σ x σ ψ|²` at 0: it falls, strictly unless the right-hand
side vanishes for all chosen strings.  All coefficients must be above `x_thresh`. -/
theorem C82_descent {A : QiteAlg} (hA : A.Ready) (hN : 1 ≤ A.trotterNumber) {σ : List Circuit} (hσ : ∀ c ∈ σ, c.PauliString A.nqb) {ψ χ₀ : St} (hψ : OnReg A.nqb ψ)
    (hc : 0 < 1 - 2 * A.db * energy A.nqb A.ham.op ψ) {x : List ℝ} (hs : IsStep A σ ψ χ₀ x) (hx : ∀ a ∈ x, A.xThresh < |a|) {χ : ℝ → St}
    (hχ : ∀ τ, TrotterState (A.kept (A.chosen σ ψ) x) A.trotterNumber τ ψ (χ τ)) :
    χ A.db = χ₀ ∧ χ 0 = ψ ∧
    HasDerivAt (fun τ => energy A.nqb A.ham.op (χ τ)) (-2 * Real.sqrt (1 - 2 * A.db * energy A.nqb A.ham.op ψ) * nrm A.nqb (pauliComb (A.chosen σ ψ) x ψ) ^ 2) 0 ∧
    ((∃ c ∈ A.chosen σ ψ, rhsElem A.nqb A.ham.op A.db ψ c ≠ 0) → ∃ δ > 0, ∀ τ, 0 < τ → τ < δ → energy A.nqb A.ham.op (χ τ) < energy A.nqb A.ham.op ψ) := by
  set s := Real.sqrt (1 - 2 * A.db * energy A.nqb A.ham.op ψ) with hsdef
  have hs0 : 0 < s := Real.sqrt_pos.2 hc
  set C := A.chosen σ ψ with hC
  have hCσ : ∀ c ∈ C, c.PauliString A.nqb := fun c h => hσ c (sparse_sub c h)
  have hl : x.length = C.length := hs.nearest.1
  have hH := hermitian_of_real hA.ham
  have z0 : χ 0 = ψ := trotterState_zero (hχ 0)
  obtain ⟨r1, r2, r3⟩ := trotter_deriv (kept_strings hCσ x) hN hψ hχ
  have hd := deriv_energy hH (s := 0) r1 r2 r3
  rw [z0, kept_all hx] at hd
  have mem : ∀ i < C.length, C.getD i [] ∈ C := fun i hi => by
    rw [List.getD_eq_getElem?_getD, List.getElem?_eq_getElem hi]; exact List.getElem_mem hi
  set v : ℕ → St := fun i => (C.getD i []).op ψ with hv
  set y : ℕ → ℝ := fun i => x.getD i 0 with hy
  have hcomb : pauliComb C x ψ = rcomb C.length v y := comb_eq C x hl ψ
  have hb : ∀ i < C.length, (inner A.nqb (v i) (rcomb C.length v y)).re = rhsElem A.nqb A.ham.op A.db ψ (C.getD i []) := by
    intro i hi
    rw [rcomb_inner_right, ← hs.solves i hi]
    exact Finset.sum_congr rfl fun j _ => mul_comm _ _
  have hval : 2 * (inner A.nqb (A.ham.op ψ) (-Complex.I • pauliComb C x ψ)).re = -2 * s * nrm A.nqb (pauliComb C x ψ) ^ 2 := by
    have e1 : inner A.nqb (A.ham.op ψ) (-Complex.I • pauliComb C x ψ) = inner A.nqb (Complex.I • A.ham.op ψ) (pauliComb C x ψ) := by
      unfold inner
      refine Finset.sum_congr rfl fun I _ => ?_
      simp only [Pi.smul_apply, smul_eq_mul, map_mul, Complex.conj_I]; ring
    rw [e1, re_inner_comm, nrm_sq_re, hcomb, rcomb_inner_left, rcomb_inner_left, Finset.mul_sum, Finset.mul_sum]
    refine Finset.sum_congr rfl fun i hi => ?_
    have hi := Finset.mem_range.1 hi
    rw [hb i hi, inner_smul_right, Complex.I_mul_re, hv, ← pauli_herm (hCσ _ (mem i hi))]
    unfold rhsElem
    rw [← hsdef]
    field_simp
  rw [hval] at hd
  refine ⟨(hχ A.db).unique hs.evolved, z0, hd, ?_⟩
  rintro ⟨c, hc1, hc2⟩
  have hpos : 0 < nrm A.nqb (pauliComb C x ψ) ^ 2 := by
    rw [nrm_sq_re]
    refine lt_of_le_of_ne (by rw [← nrm_sq_re]; positivity) fun h0 => hc2 ?_
    obtain ⟨i, hi, rfl⟩ := List.getElem_of_mem hc1
    have := re_inner_zero h0.symm (v i)
    rw [re_inner_comm, hcomb, hb i hi, List.getD_eq_getElem _ _ hi] at this
    exact this
  have hneg : -2 * s * nrm A.nqb (pauliComb C x ψ) ^ 2 < 0 := by
    have := mul_pos hs0 hpos
    linarith
  have ev := (hasDerivAt_iff_tendsto_slope.1 hd).eventually (gt_mem_nhds hneg)
  rw [eventually_nhdsWithin_iff, Metric.eventually_nhds_iff] at ev
  obtain ⟨δ, hδ, h⟩ := ev
  refine ⟨δ, hδ, fun τ h1 h2 => ?_⟩
  have := h (y := τ) (by rw [Real.dist_eq, sub_zero, abs_of_pos h1]; exact h2) (by simpa using h1.ne')
  rw [slope_def_field, sub_zero, z0, div_neg_iff] at this
  rcases this with ⟨-, h'⟩ | ⟨h', -⟩
  · exact absurd h' (by linarith)
  · linarith

/-- C82: when `1 - 2 db ⟨H⟩ ≤ 0` the right-hand side is not a number.  With the selection of strings the step then silently leaves the state as it is, up to a phase,
whatever the imaginary-time step would be; without it the solver refuses. -/
theorem C82_stall {A : QiteAlg} (hA : A.Ready) {ls : LstsqOracle} {par : Option Schedule}
    {σ : List Circuit} (hσ : ∀ c ∈ σ, c.PauliString A.nqb) {ψ : St} (hc : 1 - 2 * A.db * energy A.nqb A.ham.op ψ ≤ 0) :
    (A.sparseSb = true → ∀ χ x, IsStep A σ ψ χ x → χ = ψ) ∧
    (A.sparseSb = false → σ ≠ [] → ∀ st : QiteState, st.qc.WF → st.qc.nqubit = A.nqb → st.qc.psi = ψ → st.ekb.getLast? = some (energy A.nqb A.ham.op ψ) →
      A.step ls par (poolOf σ) st = .error .valueError) := by
  constructor
  · intro hs χ x h
    have e : A.chosen σ ψ = [] := by unfold chosen; rw [if_pos hs, if_pos hc]
    have h' := h.evolved
    rw [e] at h'
    obtain ⟨Us, u1, rfl⟩ := h'
    unfold kept at u1
    rw [List.zip_nil_right] at u1
    cases u1
    simp [applyInOrder]
  · rintro hs hne st hq hn rfl hE
    unfold step
    rw [hE]
    simp only [Option.elim, pure, Except.pure, except_ok_bind]
    rw [buildB_ok hA hq hn σ hσ, except_ok_bind, if_pos hc, if_neg hne]
    unfold selected
    rw [hs]; rfl

end QiteAlg
end QF
