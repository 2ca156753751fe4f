import Verif.Props.QPERun
import Verif.Props.TrotterConv

/-!
C101: phase estimation on an arbitrary trial state, with a Hamiltonian whose terms need not commute.
-/
namespace QF

/-- the (unnormalised) state of the computational register left behind by the readout `x` of `a` ancillas, when the evolution
applied `y` times makes `f y` of the trial state: `2^{-a} Σ_{y < 2^a} e^{-2πi x y/2^a} f y` -/
noncomputable def qpeVec (a : ℕ) (f : ℕ → St) (x : ℕ) : St :=
  ((1 : ℂ) / 2 ^ a) • ∑ y ∈ Finset.range (2 ^ a), ee (-((x : ℝ) * y) / 2 ^ a) • f y

theorem qpeVec_apply (a : ℕ) (f : ℕ → St) (x J : ℕ) :
    qpeVec a f x J = 1 / 2 ^ a * ∑ y ∈ Finset.range (2 ^ a), ee (-((x : ℝ) * y) / 2 ^ a) * f y J := by
  simp [qpeVec, Finset.sum_apply]

/-- the inverse transform undoes the transform for arbitrary families of states -/
theorem stages_general (n a : ℕ) (f : ℕ → St) (I : ℕ) :
    Circuit.op (stages n a) (fun J => qpeVec a f (blockVal J n a) (setBlock J n a 0)) I =
      ((1 / Real.sqrt (2 ^ a) : ℝ) : ℂ) * f (leVal I n a) (setBlock I n a 0) := by
  rw [stages_apply]
  congr 1
  have e1 : ∀ x ∈ Finset.range (2 ^ a), ee ((x * leVal I n a : ℝ) / 2 ^ a) * qpeVec a f (blockVal (setBlock I n a x) n a) (setBlock (setBlock I n a x) n a 0) =
      1 / 2 ^ a * ∑ y ∈ Finset.range (2 ^ a), f y (setBlock I n a 0) * ee (x * ((leVal I n a : ℝ) - y) / ((2 ^ a : ℕ) : ℝ)) := by
    intro x hx
    rw [blockVal_setBlock I a n x (Finset.mem_range.1 hx), setBlock_setBlock, qpeVec_apply,
      show ∀ u v s : ℂ, u * (v * s) = v * (u * s) by intros; ring, Finset.mul_sum]
    congr 1
    refine Finset.sum_congr rfl fun y _ => ?_
    rw [← mul_assoc, ← ee_add, mul_comm]
    congr 2
    push_cast; ring
  rw [Finset.sum_congr rfl e1, ← Finset.mul_sum, Finset.sum_comm]
  have e2 : ∀ y ∈ Finset.range (2 ^ a), ∑ x ∈ Finset.range (2 ^ a), f y (setBlock I n a 0) * ee (x * ((leVal I n a : ℝ) - y) / ((2 ^ a : ℕ) : ℝ)) =
      if leVal I n a = y then f y (setBlock I n a 0) * 2 ^ a else 0 := by
    intro y hy
    rw [← Finset.mul_sum, ee_diff_sum _ _ _ (leVal_lt I n a) (Finset.mem_range.1 hy)]
    split_ifs <;> simp
  rw [Finset.sum_congr rfl e2, Finset.sum_ite_eq, if_pos (Finset.mem_range.2 (leVal_lt I n a))]
  field_simp

/-- C101: the state of the register before measurement, for every trial state: the readout `x` goes with the state
`2^{-a} Σ_y e^{-2πi x y/2^a} W^y trial` of the computational register, `W` being the Trotterized evolution. -/
theorem C101_state (A : QpeAlg) (hA : A.Ready) (na : ℕ) :
    ∃ (c : Circuit) (q : Computer) (W : Op), A.uqpe na = .ok c ∧ (Computer.init (A.nqb + na)).applyCircuit c = .ok q ∧ q.WF ∧ q.nqubit = A.nqb + na ∧
      (∀ Φ, TrotterState A.ham A.trotterNumber A.t Φ (W Φ)) ∧
      ∀ I, q.psi I = qpeVec na (fun y => (W ^ y) A.trial) (blockVal I A.nqb na) (setBlock I A.nqb na 0) := by
  obtain ⟨D, W, d1, d2, d3, d4, hfit, hex⟩ := uqpe_ok hA na
  have hgs := stages_gates na A.nqb
  obtain ⟨q, q1, q2, q3, q4⟩ := applyCircuit_exact _ (Computer.WF.init (A.nqb + na)) hfit hex
  refine ⟨hads A.nqb na ++ A.uprep ++ D ++ Circuit.adjoint (stages A.nqb na), q, W, d1, q1, q2, q3, d2, fun I => ?_⟩
  rw [q4, init_psi, Circuit.op_append, Circuit.op_append, Circuit.op_append, Module.End.mul_apply, Module.End.mul_apply, Module.End.mul_apply]
  have hoff : ∀ q, A.nqb ≤ q → OffQubit q A.uprep.op := by
    intro q hq m
    refine circuit_comm_op1 m fun g hg => ?_
    have := hA.prep.1 g hg
    omega
  have c1 : A.uprep.op ((hads A.nqb na).op fun I => if I = 0 then 1 else 0) = (hads A.nqb na).op A.trial :=
    (LinearMap.congr_fun (hads_comm hoff).eq _).symm
  have hsup : ∀ y J i, i < na → J.testBit (A.nqb + i) = true → ((W ^ y) A.trial) J = 0 := by
    intro y J i _ h
    have h1 := LinearMap.congr_fun ((d3 (A.nqb + i) (by omega)).pow y (fun a b => if a = true ∧ b = true then 1 else 0)).eq A.trial
    have h2 := congrFun h1 J
    rw [Module.End.mul_apply, Module.End.mul_apply] at h2
    have h3 : op1 (A.nqb + i) (fun a b => if a = true ∧ b = true then 1 else 0) A.trial = 0 := by
      funext K
      rw [op1_apply]
      have : A.trial (setBit K (A.nqb + i) true) = 0 := by
        refine trial_onReg hA _ ?_
        refine le_trans (Nat.pow_le_pow_right (by norm_num) (Nat.le_add_right A.nqb i)) (Nat.ge_two_pow_of_testBit ?_)
        simp
      rw [this]; simp
    rw [h3, map_zero, op1_apply, h] at h2
    have h4 : setBit J (A.nqb + i) true = J := setBit_eq_self h
    rw [h4] at h2
    simpa using h2
  have c2 : D.op ((hads A.nqb na).op A.trial) =
      Circuit.op (stages A.nqb na) (fun J => qpeVec na (fun y => (W ^ y) A.trial) (blockVal J A.nqb na) (setBlock J A.nqb na 0)) := by
    funext J
    rw [d4, stages_general]
    have : (W ^ leVal J A.nqb na) ((hads A.nqb na).op A.trial) = (hads A.nqb na).op ((W ^ leVal J A.nqb na) A.trial) :=
      (LinearMap.congr_fun (hads_comm (a := na) fun q hq => (d3 q hq).pow (leVal J A.nqb na)).eq _).symm
    rw [this, hads_apply _ _ _ (hsup _)]
  rw [c1, c2, ← Module.End.mul_apply, (circuit_adjoint_op fun g hg => (hgs g hg).1).1, Module.End.one_apply]


theorem sum_readout (n a : ℕ) (G : ℕ → ℕ → ℝ) : ∑ I ∈ Finset.range (2 ^ (n + a)), G (blockVal I n a) (setBlock I n a 0) =
    ∑ x ∈ Finset.range (2 ^ a), ∑ J ∈ Finset.range (2 ^ n), G x J := by
  rw [← Finset.sum_product']
  refine Finset.sum_nbij' (fun I => (blockVal I n a, setBlock I n a 0)) (fun p => setBlock p.2 n a p.1) ?_ ?_ ?_ ?_ ?_
  · intro I hI
    rw [Finset.mem_product, Finset.mem_range, Finset.mem_range]
    exact ⟨blockVal_lt _ _ _, setBlock_zero_lt I n a (Finset.mem_range.1 hI)⟩
  · rintro ⟨x, J⟩ h
    rw [Finset.mem_product, Finset.mem_range, Finset.mem_range] at h
    exact Finset.mem_range.2 (setBlock_lt J n a x h.2)
  · intro I _
    show setBlock (setBlock I n a 0) n a (blockVal I n a) = I
    rw [setBlock_setBlock, setBlock_blockVal]
  · rintro ⟨x, J⟩ h
    rw [Finset.mem_product, Finset.mem_range, Finset.mem_range] at h
    show (blockVal (setBlock J n a x) n a, setBlock (setBlock J n a x) n a 0) = (x, J)
    rw [blockVal_setBlock J a n x h.1, setBlock_setBlock, setBlock_self J n a h.2]
  · intro I _; rfl

theorem readout_sum {n a : ℕ} {ψ : St} {f : ℕ → St} (h : ∀ I, ψ I = qpeVec a f (blockVal I n a) (setBlock I n a 0)) (P : ℕ → Prop) [DecidablePred P] :
    ∑ I ∈ Finset.range (2 ^ (n + a)) with P (blockVal I n a), ‖ψ I‖ ^ 2 = ∑ x ∈ Finset.range (2 ^ a) with P x, nrm n (qpeVec a f x) ^ 2 := by
  rw [Finset.sum_filter, Finset.sum_filter]
  have := sum_readout n a fun x J => if P x then ‖qpeVec a f x J‖ ^ 2 else 0
  rw [Finset.sum_congr rfl fun I _ => by rw [h I], this]
  refine Finset.sum_congr rfl fun x _ => ?_
  split_ifs
  · rw [nrm_sq]
  · simp

/-- C101: the distribution of the readout, for every trial state and every Hamiltonian: `x` is read with the probability
`‖2^{-a} Σ_y e^{-2πi x y/2^a} W^y trial‖²`. -/
theorem C101_distribution (A : QpeAlg) (hA : A.Ready) (na : ℕ) :
    ∃ (c : Circuit) (q : Computer) (W : Op), A.uqpe na = .ok c ∧ (Computer.init (A.nqb + na)).applyCircuit c = .ok q ∧
      (∀ Φ, TrotterState A.ham A.trotterNumber A.t Φ (W Φ)) ∧
      ∀ x < 2 ^ na, ∑ I ∈ Finset.range (2 ^ (A.nqb + na)) with blockVal I A.nqb na = x, ‖q.psi I‖ ^ 2 =
        nrm A.nqb (qpeVec na (fun y => (W ^ y) A.trial) x) ^ 2 := by
  obtain ⟨c, q, W, u1, u2, -, -, u5, u6⟩ := C101_state A hA na
  refine ⟨c, q, W, u1, u2, u5, fun x hx => ?_⟩
  rw [readout_sum u6 fun y => y = x, Finset.sum_filter, Finset.sum_ite_eq', if_pos (Finset.mem_range.2 hx)]

/-! ### Parseval -/

theorem ee_conj (x : ℝ) : (starRingEnd ℂ) (ee x) = ee (-x) := by
  unfold ee
  rw [← Complex.exp_conj]
  congr 1
  simp only [map_mul, Complex.conj_ofReal, Complex.conj_I, map_ofNat]
  push_cast; ring

theorem normSq_sum (s : Finset ℕ) (c : ℕ → ℂ) : ((‖∑ y ∈ s, c y‖ ^ 2 : ℝ) : ℂ) = ∑ y ∈ s, ∑ z ∈ s, c y * (starRingEnd ℂ) (c z) := by
  rw [← Finset.sum_mul_sum, ← map_sum, Complex.mul_conj, Complex.normSq_eq_norm_sq]

theorem parseval (a : ℕ) (c : ℕ → ℂ) :
    ∑ x ∈ Finset.range (2 ^ a), ‖1 / 2 ^ a * ∑ y ∈ Finset.range (2 ^ a), ee (-((x : ℝ) * y) / 2 ^ a) * c y‖ ^ 2 =
      1 / 2 ^ a * ∑ y ∈ Finset.range (2 ^ a), ‖c y‖ ^ 2 := by
  have hp : (2 : ℂ) ^ a ≠ 0 := pow_ne_zero _ (by norm_num)
  apply Complex.ofReal_injective
  have e1 : ∀ x ∈ Finset.range (2 ^ a), ((‖1 / 2 ^ a * ∑ y ∈ Finset.range (2 ^ a), ee (-((x : ℝ) * y) / 2 ^ a) * c y‖ ^ 2 : ℝ) : ℂ) =
      1 / 2 ^ a * (1 / 2 ^ a) * ∑ y ∈ Finset.range (2 ^ a), ∑ z ∈ Finset.range (2 ^ a),
        c y * (starRingEnd ℂ) (c z) * ee (x * ((z : ℝ) - y) / ((2 ^ a : ℕ) : ℝ)) := by
    intro x _
    rw [norm_mul, mul_pow, Complex.ofReal_mul, normSq_sum]
    congr 1
    · have : ‖(1 : ℂ) / 2 ^ a‖ = 1 / 2 ^ a := by simp
      rw [this]; push_cast; ring
    · refine Finset.sum_congr rfl fun y _ => Finset.sum_congr rfl fun z _ => ?_
      rw [map_mul, ee_conj]
      have : ee (x * ((z : ℝ) - y) / ((2 ^ a : ℕ) : ℝ)) = ee (-((x : ℝ) * y) / 2 ^ a) * ee (-(-((x : ℝ) * z) / 2 ^ a)) := by
        rw [← ee_add]; congr 1; push_cast; ring
      rw [this]; ring
  rw [Complex.ofReal_sum, Finset.sum_congr rfl e1, ← Finset.mul_sum, Finset.sum_comm]
  have e2 : ∀ y ∈ Finset.range (2 ^ a), ∑ x ∈ Finset.range (2 ^ a), ∑ z ∈ Finset.range (2 ^ a),
      c y * (starRingEnd ℂ) (c z) * ee (x * ((z : ℝ) - y) / ((2 ^ a : ℕ) : ℝ)) = 2 ^ a * ((‖c y‖ ^ 2 : ℝ) : ℂ) := by
    intro y hy
    rw [Finset.sum_comm]
    have : ∀ z ∈ Finset.range (2 ^ a), ∑ x ∈ Finset.range (2 ^ a), c y * (starRingEnd ℂ) (c z) * ee (x * ((z : ℝ) - y) / ((2 ^ a : ℕ) : ℝ)) =
        if z = y then c y * (starRingEnd ℂ) (c z) * 2 ^ a else 0 := by
      intro z hz
      rw [← Finset.mul_sum, ee_diff_sum _ _ _ (Finset.mem_range.1 hz) (Finset.mem_range.1 hy)]
      split_ifs <;> simp
    rw [Finset.sum_congr rfl this, Finset.sum_ite_eq' _ y, if_pos hy, Complex.mul_conj, Complex.normSq_eq_norm_sq]
    ring
  rw [Finset.sum_congr rfl e2, ← Finset.mul_sum, ← Complex.ofReal_sum]
  push_cast
  field_simp

/-- the readout probabilities add up to the mean norm of the states -/
theorem qpeVec_total (n a : ℕ) (f : ℕ → St) :
    ∑ x ∈ Finset.range (2 ^ a), nrm n (qpeVec a f x) ^ 2 = 1 / 2 ^ a * ∑ y ∈ Finset.range (2 ^ a), nrm n (f y) ^ 2 := by
  simp only [nrm_sq]
  rw [Finset.sum_comm, Finset.sum_comm (s := Finset.range (2 ^ a)) (t := Finset.range (2 ^ n)) (f := fun y I => ‖f y I‖ ^ 2), Finset.mul_sum]
  refine Finset.sum_congr rfl fun J _ => ?_
  simp only [qpeVec_apply]
  exact parseval a fun y => f y J

theorem qpeVec_sub (a : ℕ) (f g : ℕ → St) (x : ℕ) : qpeVec a f x - qpeVec a g x = qpeVec a (fun y => f y - g y) x := by
  funext J
  rw [Pi.sub_apply, qpeVec_apply, qpeVec_apply, qpeVec_apply, ← mul_sub, ← Finset.sum_sub_distrib]
  congr 1
  refine Finset.sum_congr rfl fun y _ => ?_
  rw [Pi.sub_apply, mul_sub]

theorem qpeVec_inner (n a : ℕ) (v : St) (f : ℕ → St) (x : ℕ) (φ : ℝ) (α : ℂ) (h : ∀ y, inner n v (f y) = ee φ ^ y * α) :
    inner n v (qpeVec a f x) = qpeAmp a φ x * α := by
  have e : inner n v (qpeVec a f x) = 1 / 2 ^ a * ∑ y ∈ Finset.range (2 ^ a), ee (-((x : ℝ) * y) / 2 ^ a) * inner n v (f y) := by
    simp only [inner, qpeVec_apply, Finset.mul_sum]
    rw [Finset.sum_comm]
    refine Finset.sum_congr rfl fun y _ => Finset.sum_congr rfl fun J _ => ?_
    ring
  rw [e, qpeAmp, mul_assoc, Finset.sum_mul]
  congr 1
  refine Finset.sum_congr rfl fun y _ => ?_
  rw [h, ← mul_assoc, ee_pow, ← ee_add]
  congr 2
  ring

theorem qpeAmp_total (a : ℕ) (φ : ℝ) : ∑ x ∈ Finset.range (2 ^ a), ‖qpeAmp a φ x‖ ^ 2 = 1 := by
  have h := parseval a fun y => ee (y * φ)
  have e : ∀ y : ℕ, ‖ee (y * φ)‖ = 1 := fun y => by
    unfold ee
    rw [show (2 * Real.pi * Complex.I * ((y * φ : ℝ) : ℂ)) = ((2 * Real.pi * (y * φ) : ℝ) : ℂ) * Complex.I by push_cast; ring]
    exact Complex.norm_exp_ofReal_mul_I _
  simp only [e, one_pow, Finset.sum_const, Finset.card_range, nsmul_eq_mul, mul_one] at h
  rw [show (1 : ℝ) / 2 ^ a * ((2 ^ a : ℕ) : ℝ) = 1 by push_cast; field_simp] at h
  rw [← h]
  refine Finset.sum_congr rfl fun x _ => ?_
  unfold qpeAmp
  congr 3
  refine Finset.sum_congr rfl fun y _ => ?_
  rw [← ee_add]; congr 1; ring

/-- the readouts close to `φ` -/
theorem close_total (b p : ℕ) (hp : 1 ≤ p) (φ : ℝ) : open Classical in
    1 - 1 / (2 * (2 : ℝ) ^ p - 1) ≤ ∑ x ∈ Finset.range (2 ^ (b + p)) with CloseTo (b + p) b φ x, ‖qpeAmp (b + p) φ x‖ ^ 2 := by
  classical
  have hbad := qpe_tail (b + p) p hp φ ((Finset.range (2 ^ (b + p))).filter fun x => ¬ CloseTo (b + p) b φ x) (by
    intro x hx
    obtain ⟨h1, h2⟩ := Finset.mem_filter.1 hx
    refine ⟨Finset.mem_range.1 h1, fun k => ?_⟩
    by_contra hc
    refine h2 ⟨k, ?_⟩
    have hN : (0 : ℝ) < 2 ^ (b + p) := by positivity
    have e : 2 ^ (b + p) * φ - x - 2 ^ (b + p) * k = 2 ^ (b + p) * (φ - x / 2 ^ (b + p) - k) := by field_simp
    rw [e, abs_mul, abs_of_pos hN, not_le] at hc
    have e2 : (2 : ℝ) ^ (b + p) = 2 ^ b * 2 ^ p := by rw [pow_add]
    rw [lt_div_iff₀ (by positivity)]
    have hp0 : (0 : ℝ) < 2 ^ p := by positivity
    rw [e2] at hc
    have : 2 ^ p * (|φ - x / (2 ^ b * 2 ^ p) - k| * 2 ^ b) < 2 ^ p * 1 := by linarith
    rw [e2]
    exact lt_of_mul_lt_mul_left this hp0.le)
  have htot := Finset.sum_filter_add_sum_filter_not (Finset.range (2 ^ (b + p))) (fun x => CloseTo (b + p) b φ x) (fun x => ‖qpeAmp (b + p) φ x‖ ^ 2)
  rw [qpeAmp_total] at htot
  linarith


/-! ### arbitrary trial states -/

theorem pow_dist {n : ℕ} {W U : Op} {δ : ℝ} (hW : ∀ ψ, nrm n (W ψ) = nrm n ψ) (hU : ∀ ψ, nrm n (U ψ) = nrm n ψ)
    (h : ∀ ψ, nrm n (W ψ - U ψ) ≤ δ * nrm n ψ) (Φ : St) (y : ℕ) : nrm n ((W ^ y) Φ - (U ^ y) Φ) ≤ y * δ * nrm n Φ := by
  have hUy : ∀ y : ℕ, nrm n ((U ^ y) Φ) = nrm n Φ := by
    intro y
    induction y with
    | zero => simp
    | succ y ih => rw [pow_succ', Module.End.mul_apply, hU, ih]
  induction y with
  | zero => simp [nrm_zero]
  | succ y ih =>
    have e : (W ^ (y + 1)) Φ - (U ^ (y + 1)) Φ = W ((W ^ y) Φ - (U ^ y) Φ) + (W ((U ^ y) Φ) - U ((U ^ y) Φ)) := by
      rw [pow_succ', pow_succ', Module.End.mul_apply, Module.End.mul_apply, map_sub]; abel
    rw [e]
    refine le_trans (nrm_add_le _ _ _) ?_
    rw [hW]
    have := h ((U ^ y) Φ)
    rw [hUy] at this
    push_cast
    linarith

/-- squares of nearby families -/
theorem sum_sq_near (s : Finset ℕ) (p q d : ℕ → ℝ) (_hp : ∀ x, 0 ≤ p x) (hq : ∀ x, 0 ≤ q x) (_hd : ∀ x, 0 ≤ d x) (h : ∀ x ∈ s, q x ≤ p x + d x)
    {ε : ℝ} (hε : 0 ≤ ε) (h1 : ∑ x ∈ s, q x ^ 2 ≤ 1) (h2 : ∑ x ∈ s, d x ^ 2 ≤ ε ^ 2) : ∑ x ∈ s, q x ^ 2 - 2 * ε ≤ ∑ x ∈ s, p x ^ 2 := by
  have e1 : ∀ x ∈ s, q x ^ 2 - 2 * (q x * d x) ≤ p x ^ 2 := by
    intro x hx
    by_cases hc : q x ≤ d x
    · nlinarith [hq x, _hd x, sq_nonneg (p x)]
    · push Not at hc
      have := h x hx
      nlinarith [_hp x, _hd x, sq_nonneg (d x)]
  have e2 := Finset.sum_le_sum e1
  rw [Finset.sum_sub_distrib, ← Finset.mul_sum] at e2
  have e3 : (∑ x ∈ s, q x * d x) ^ 2 ≤ ε ^ 2 := by
    refine le_trans (Finset.sum_mul_sq_le_sq_mul_sq s q d) ?_
    have : 0 ≤ ∑ x ∈ s, d x ^ 2 := Finset.sum_nonneg fun x _ => sq_nonneg _
    have : 0 ≤ ∑ x ∈ s, q x ^ 2 := Finset.sum_nonneg fun x _ => sq_nonneg _
    nlinarith
  have e4 := abs_le_of_sq_le_sq' e3 hε
  linarith [e4.2]

open Classical in
/-- C101: phase estimation with an arbitrary trial state.  If `v` is a unit eigenvector of the Hamiltonian with energy `E`, then, with
the number of ancillas `run` chooses from `success_prob` and `num_precise_bits`, a readout agrees with the phase `-E t/2π` of `v` to
within `2^{-num_precise_bits}` turns with probability at least `|⟨v|trial⟩|² success_prob`, less `2^{a+1}` times the Trotter error. -/
theorem C101_overlap (A : QpeAlg) (hA : A.Ready) (hs : A.successProb < 1) (v : St) (hv : inner A.nqb v v = 1) (E : ℝ)
    (hE : A.ham.op v = (E : ℂ) • v) :
    ∃ a c q, A.nAncilla = .ok a ∧ A.preciseBits < a ∧ A.uqpe a = .ok c ∧ (Computer.init (A.nqb + a)).applyCircuit c = .ok q ∧
      ∑ I ∈ Finset.range (2 ^ (A.nqb + a)), ‖q.psi I‖ ^ 2 = 1 ∧
      ‖inner A.nqb v A.trial‖ ^ 2 * A.successProb - 2 ^ (a + 1) * (A.t ^ 2 * ncWeight 1 A.ham / A.trotterNumber) ≤
        ∑ I ∈ Finset.range (2 ^ (A.nqb + a)) with CloseTo a A.preciseBits (-(E * A.t) / (2 * Real.pi)) (blockVal I A.nqb a), ‖q.psi I‖ ^ 2 := by
  obtain ⟨p, p1, p2, p3⟩ := ancilla_enough (1 - A.successProb) (by linarith)
  obtain ⟨c, q, W, u1, u2, u3, u4, u5, u6⟩ := C101_state A hA (A.preciseBits + p)
  have hn : A.nAncilla = .ok (A.preciseBits + p) := by
    unfold QpeAlg.nAncilla
    have h0 : 0 < 1 / (1 - A.successProb) := div_pos one_pos (by linarith)
    rw [if_neg (by linarith), if_neg (by linarith), p2]
    rfl
  have hone : ∑ I ∈ Finset.range (2 ^ (A.nqb + (A.preciseBits + p))), ‖q.psi I‖ ^ 2 = 1 := by
    have := applyCircuit_norm u2 u1 hA
    rw [u4, inner_self_sum] at this
    exact_mod_cast this
  refine ⟨A.preciseBits + p, c, q, hn, by omega, u1, u2, hone, ?_⟩
  have hclose := close_total A.preciseBits p p1 (-(E * A.t) / (2 * Real.pi))
  set a := A.preciseBits + p with ha
  set φ := -(E * A.t) / (2 * Real.pi) with hφ
  set n := A.nqb with hnq
  -- the exact evolution
  obtain ⟨U, hU, hUu, -⟩ := C100_states n A.ham hA.ham A.trotterNumber hA.steps A.t A.trial (W A.trial) (u5 A.trial)
  have hWU : ∀ ψ, nrm n (W ψ - U ψ) ≤ A.t ^ 2 * ncWeight 1 A.ham / A.trotterNumber * nrm n ψ := fun ψ => by
    obtain ⟨U', hU', -, h⟩ := C100_states n A.ham hA.ham A.trotterNumber hA.steps A.t ψ (W ψ) (u5 ψ)
    rwa [hU'.unique hU] at h
  have hWn : ∀ ψ, nrm n (W ψ) = nrm n ψ := fun ψ => nrm_of_inner (QiteAlg.trotterState_norm hA.ham (u5 ψ))
  have hUn : ∀ ψ, nrm n (U ψ) = nrm n ψ := fun ψ => nrm_of_inner (hUu ψ ψ)
  have hw0 : ∀ B : QubitOperator, 0 ≤ ncWeight 1 B := by
    intro B
    induction B with
    | nil => simp [ncWeight]
    | cons t B ih =>
      rw [ncWeight]
      refine add_nonneg (List.sum_nonneg fun x hx => ?_) ih
      obtain ⟨s, -, rfl⟩ := List.mem_map.1 hx
      split_ifs <;> positivity
  have hN : (0 : ℝ) < A.trotterNumber := by exact_mod_cast (by have := hA.steps; omega : 0 < A.trotterNumber)
  set δ := A.t ^ 2 * ncWeight 1 A.ham / A.trotterNumber with hδ
  have hδ0 : 0 ≤ δ := by rw [hδ]; have := hw0 A.ham; positivity
  have ntr : nrm n A.trial = 1 := nrm_of_one (trial_norm hA)
  -- the eigenvector
  have heig : U v = ee φ • v := by
    have h1 := expOn_eigen (A := (-Complex.I * A.t) • A.ham.op) (z := -Complex.I * A.t * E) (by rw [LinearMap.smul_apply, hE, smul_smul]) (hU v)
    rw [h1]
    congr 1
    unfold ee
    congr 1
    rw [hφ]
    have : (Real.pi : ℂ) ≠ 0 := by exact_mod_cast Real.pi_ne_zero
    push_cast
    field_simp
  have hUy : ∀ y : ℕ, (U ^ y) v = ee φ ^ y • v := by
    intro y
    induction y with
    | zero => simp
    | succ y ih => rw [pow_succ, Module.End.mul_apply, heig, map_smul, ih, smul_smul, pow_succ, mul_comm]
  have hee : ∀ y : ℕ, (starRingEnd ℂ) (ee φ ^ y) * ee φ ^ y = 1 := by
    intro y
    rw [ee_pow, ee_conj, ← ee_add, neg_add_cancel, ee_zero]
  have hin : ∀ y : ℕ, inner n v ((U ^ y) A.trial) = ee φ ^ y * inner n v A.trial := by
    intro y
    have h1 := QiteAlg.pow_unitary hUu y v A.trial
    rw [hUy, inner_smulL] at h1
    rw [← h1, ← mul_assoc, mul_comm (ee φ ^ y), hee, one_mul]
  -- probabilities
  have hfil : ∑ I ∈ Finset.range (2 ^ (n + a)) with CloseTo a A.preciseBits φ (blockVal I n a), ‖q.psi I‖ ^ 2 =
      ∑ x ∈ Finset.range (2 ^ a) with CloseTo a A.preciseBits φ x, nrm n (qpeVec a (fun y => (W ^ y) A.trial) x) ^ 2 := by
    exact readout_sum u6 fun x => CloseTo a A.preciseBits φ x
  rw [hfil]
  have hUtot : ∑ x ∈ Finset.range (2 ^ a) with CloseTo a A.preciseBits φ x, nrm n (qpeVec a (fun y => (U ^ y) A.trial) x) ^ 2 ≤ 1 := by
    refine le_trans (Finset.sum_le_sum_of_subset_of_nonneg (Finset.filter_subset _ _) fun x _ _ => sq_nonneg _) (le_of_eq ?_)
    rw [qpeVec_total]
    have : ∀ y ∈ Finset.range (2 ^ a), nrm n ((U ^ y) A.trial) ^ 2 = 1 := fun y _ => by
      rw [nrm_of_inner (QiteAlg.pow_unitary hUu y A.trial A.trial), ntr, one_pow]
    rw [Finset.sum_congr rfl this]
    simp
  have hdtot : ∑ x ∈ Finset.range (2 ^ a) with CloseTo a A.preciseBits φ x,
      nrm n (qpeVec a (fun y => (W ^ y) A.trial - (U ^ y) A.trial) x) ^ 2 ≤ (2 ^ a * δ) ^ 2 := by
    refine le_trans (Finset.sum_le_sum_of_subset_of_nonneg (Finset.filter_subset _ _) fun x _ _ => sq_nonneg _) ?_
    rw [qpeVec_total]
    have : ∀ y ∈ Finset.range (2 ^ a), nrm n ((W ^ y) A.trial - (U ^ y) A.trial) ^ 2 ≤ (2 ^ a * δ) ^ 2 := fun y hy => by
      have h1 := pow_dist hWn hUn hWU A.trial y
      rw [ntr, mul_one] at h1
      have h2 : (y : ℝ) ≤ 2 ^ a := by exact_mod_cast (Finset.mem_range.1 hy).le
      have h3 := nrm_nonneg n ((W ^ y) A.trial - (U ^ y) A.trial)
      gcongr
      exact le_trans h1 (by gcongr)
    refine le_trans (mul_le_mul_of_nonneg_left (Finset.sum_le_sum this) (by positivity)) (le_of_eq ?_)
    rw [Finset.sum_const, Finset.card_range, nsmul_eq_mul]
    push_cast
    field_simp
  have key := sum_sq_near ((Finset.range (2 ^ a)).filter fun x => CloseTo a A.preciseBits φ x)
    (fun x => nrm n (qpeVec a (fun y => (W ^ y) A.trial) x)) (fun x => nrm n (qpeVec a (fun y => (U ^ y) A.trial) x))
    (fun x => nrm n (qpeVec a (fun y => (W ^ y) A.trial - (U ^ y) A.trial) x)) (fun _ => nrm_nonneg _ _) (fun _ => nrm_nonneg _ _)
    (fun _ => nrm_nonneg _ _) (fun x _ => by
      rw [← qpeVec_sub, ← nrm_neg n (_ - _), neg_sub]
      have := nrm_add_le n (qpeVec a (fun y => (W ^ y) A.trial) x) (qpeVec a (fun y => (U ^ y) A.trial) x - qpeVec a (fun y => (W ^ y) A.trial) x)
      rwa [add_sub_cancel] at this) (by positivity : (0 : ℝ) ≤ 2 ^ a * δ) hUtot hdtot
  refine le_trans ?_ key
  have hov : ‖inner n v A.trial‖ ^ 2 * A.successProb ≤
      ∑ x ∈ Finset.range (2 ^ a) with CloseTo a A.preciseBits φ x, nrm n (qpeVec a (fun y => (U ^ y) A.trial) x) ^ 2 := by
    have h1 : ∀ x ∈ (Finset.range (2 ^ a)).filter fun x => CloseTo a A.preciseBits φ x,
        ‖inner n v A.trial‖ ^ 2 * ‖qpeAmp a φ x‖ ^ 2 ≤ nrm n (qpeVec a (fun y => (U ^ y) A.trial) x) ^ 2 := fun x _ => by
      have h2 := inner_le n v (qpeVec a (fun y => (U ^ y) A.trial) x)
      rw [qpeVec_inner n a v _ x φ _ hin, nrm_of_one hv, one_mul, norm_mul] at h2
      rw [← mul_pow, mul_comm]
      gcongr
    refine le_trans ?_ (Finset.sum_le_sum h1)
    rw [← Finset.mul_sum]
    refine mul_le_mul_of_nonneg_left ?_ (sq_nonneg _)
    linarith
  have e2 : (2 : ℝ) ^ (a + 1) * δ = 2 * (2 ^ a * δ) := by rw [pow_succ]; ring
  rw [e2]
  exact sub_le_sub_right hov _


/-! ### example: `X + Z`, whose terms do not commute, and the trial state `|0⟩`, which is no eigenvector -/

/-- the Hamiltonian `X₀ + Z₀` with 1024 Trotter steps and the trial state `|0⟩` -/
noncomputable def exampleMix : QpeAlg :=
  { nqb := 1, uprep := [], ham := [(1, [gX 0]), (1, [gZ 0])], trotterNumber := 1024, guess := 0, t := 1, nruns := 1, preciseBits := 1 }

theorem exampleMix_ready : exampleMix.Ready := by
  refine ⟨⟨by simp [exampleMix, Circuit.Fits], by simp [exampleMix]⟩, ?_, by decide⟩
  intro t ht
  simp only [exampleMix, List.mem_cons, List.not_mem_nil, or_false] at ht
  rcases ht with rfl | rfl
  · refine ⟨rfl, ⟨?_, by simp, ?_⟩⟩
    · intro g hg
      rw [List.mem_singleton.1 hg]; exact pauliGate_X 0
    · intro g hg
      rw [List.mem_singleton.1 hg]; exact ⟨Nat.zero_lt_one, Nat.zero_lt_one⟩
  · refine ⟨rfl, ⟨?_, by simp, ?_⟩⟩
    · intro g hg
      rw [List.mem_singleton.1 hg]; exact pauliGate_Z 0
    · intro g hg
      rw [List.mem_singleton.1 hg]; exact ⟨Nat.zero_lt_one, Nat.zero_lt_one⟩

open Classical in
/-- C101 on `X₀ + Z₀` (largest eigenvalue `√2`) and the trial state `|0⟩`: with three ancillas and 1024 Trotter steps the phase of
`√2` is read to within half a turn in at least three of eight runs. -/
theorem C101_example : ∃ a c q, exampleMix.nAncilla = .ok a ∧ exampleMix.uqpe a = .ok c ∧ (Computer.init (1 + a)).applyCircuit c = .ok q ∧
    3 / 8 ≤ ∑ I ∈ Finset.range (2 ^ (1 + a)) with CloseTo a 1 (-(Real.sqrt 2 * 1) / (2 * Real.pi)) (blockVal I 1 a), ‖q.psi I‖ ^ 2 := by
  have h2 : Real.sqrt 2 ^ 2 = 2 := Real.sq_sqrt (by norm_num)
  have h2p : 0 < Real.sqrt 2 := by positivity
  have h2l : Real.sqrt 2 < 3 / 2 := by
    rw [Real.sqrt_lt' (by norm_num)]; norm_num
  have h2g : 7 / 5 < Real.sqrt 2 := by
    rw [Real.lt_sqrt (by norm_num)]; norm_num
  set r := Real.sqrt (4 + 2 * Real.sqrt 2) with hr
  have hr2 : r ^ 2 = 4 + 2 * Real.sqrt 2 := Real.sq_sqrt (by positivity)
  have hr0 : 0 < r := by positivity
  let v : St := fun I => if I = 0 then (((1 + Real.sqrt 2) / r : ℝ) : ℂ) else if I = 1 then ((1 / r : ℝ) : ℂ) else 0
  have v0 : v 0 = (((1 + Real.sqrt 2) / r : ℝ) : ℂ) := by simp [v]
  have v1 : v 1 = ((1 / r : ℝ) : ℂ) := by simp [v]
  have hv : inner 1 v v = 1 := by
    have : inner 1 v v = (((1 + Real.sqrt 2) / r * ((1 + Real.sqrt 2) / r) + 1 / r * (1 / r) : ℝ) : ℂ) := by
      simp only [inner, pow_one, Finset.sum_range_succ, Finset.sum_range_zero, v0, v1, Complex.conj_ofReal]
      push_cast; ring
    rw [this]
    have : (1 + Real.sqrt 2) / r * ((1 + Real.sqrt 2) / r) + 1 / r * (1 / r) = 1 := by
      field_simp
      nlinarith
    rw [this]; simp
  have hE : exampleMix.ham.op v = ((Real.sqrt 2 : ℝ) : ℂ) • v := by
    have hop : exampleMix.ham.op = opX 0 + opZ 0 := by
      simp [exampleMix, QubitOperator.op, op_gZ, op_gX]
    rw [hop]
    funext I
    rw [LinearMap.add_apply, Pi.add_apply, opZ_apply, opX_apply, Pi.smul_apply, smul_eq_mul]
    by_cases i0 : I = 0
    · subst i0
      rw [show flipBit 0 0 = 1 by decide, v0, v1]
      simp only [Nat.zero_testBit]
      rw [if_neg (by simp), one_mul, ← Complex.ofReal_mul, ← Complex.ofReal_add]
      congr 1
      field_simp
      nlinarith
    · by_cases i1 : I = 1
      · subst i1
        rw [show flipBit 1 0 = 0 by decide, v0, v1, if_pos (by decide), neg_one_mul, ← Complex.ofReal_neg, ← Complex.ofReal_add, ← Complex.ofReal_mul]
        congr 1
        field_simp
        ring
      · have hf : flipBit I 0 ≠ 0 ∧ flipBit I 0 ≠ 1 := by
          constructor <;> intro h
          · have := congrArg (fun J => flipBit J 0) h
            simp only [flipBit_flipBit] at this
            exact i1 (by rw [this]; rfl)
          · have := congrArg (fun J => flipBit J 0) h
            simp only [flipBit_flipBit] at this
            exact i0 (by rw [this]; rfl)
        have hz : ∀ K, K ≠ 0 → K ≠ 1 → v K = 0 := fun K a b => by simp [v, a, b]
        rw [hz _ hf.1 hf.2, hz I i0 i1]; simp
  obtain ⟨a, c, q, e1, -, e3, e4, -, e6⟩ := C101_overlap exampleMix exampleMix_ready (by norm_num [exampleMix]) v hv (Real.sqrt 2) hE
  have ha : a = 3 := by
    have := ancilla_half (A := exampleMix) rfl
    rw [e1] at this
    exact Except.ok.inj this
  refine ⟨a, c, q, e1, e3, e4, le_trans ?_ e6⟩
  have ht : exampleMix.trial = fun I => if I = 0 then 1 else 0 := by
    unfold QpeAlg.trial
    simp [exampleMix]
  have hov : inner exampleMix.nqb v exampleMix.trial = (((1 + Real.sqrt 2) / r : ℝ) : ℂ) := by
    rw [ht]
    show inner 1 v _ = _
    simp only [inner, pow_one, Finset.sum_range_succ, Finset.sum_range_zero, v0, v1, Complex.conj_ofReal]
    simp
  rw [hov, Complex.norm_real, Real.norm_eq_abs, sq_abs, div_pow, hr2, ha]
  have hw : ncWeight 1 exampleMix.ham ≤ 1 := by
    simp only [ncWeight, exampleMix, List.map_cons, List.map_nil, List.sum_cons, List.sum_nil, add_zero]
    split_ifs <;> simp
  have h3 : (4 : ℝ) / 5 ≤ (1 + Real.sqrt 2) ^ 2 / (4 + 2 * Real.sqrt 2) := by
    rw [le_div_iff₀ (by positivity)]; nlinarith
  have hN : ((exampleMix.trotterNumber : ℤ) : ℝ) = 1024 := by simp [exampleMix]
  have ht1 : exampleMix.t = 1 := rfl
  have hsp : exampleMix.successProb = 1 / 2 := rfl
  rw [hN, ht1, hsp]
  norm_num
  linarith

end QF
