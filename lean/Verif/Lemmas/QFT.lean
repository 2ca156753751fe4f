import Verif.Model.QFT
import Verif.Spec.DFT
import Verif.Lemmas.Expo

namespace QF

/-! ### gates of the circuit -/

noncomputable def gCR (t c : ℕ) (θ : ℝ) : Gate := ⟨"cR", t, c, matC 1 0 0 (Complex.exp (Complex.I * (normalizeAngle θ (2 * Real.pi) : ℝ))), some (normalizeAngle θ (2 * Real.pi), true)⟩
def gSWAP (t c : ℕ) : Gate := ⟨"SWAP", t, c, matSWAP, none⟩

theorem make_CR {t c : ℕ} (h : t ≠ c) (θ : ℝ) : makeGate "cR" t c θ = .ok (gCR t c θ) := makeGate_of_made (.cR t c θ h)
theorem make_SWAP {t c : ℕ} (h : t ≠ c) (θ : ℝ) : makeGate "SWAP" t c θ = .ok (gSWAP t c) := makeGate_of_made (.SWAP t c θ h)

theorem op_gCR {t c : ℕ} (h : t ≠ c) (θ : ℝ) : (gCR t c θ).op = ctrlOp c true (phaseOp t θ) := by
  have := (makeGate_spec (make_CR h θ)).2.2.2
  simp [stdGate, h] at this
  exact this.symm
theorem op_gSWAP {t c : ℕ} (h : t ≠ c) : (gSWAP t c).op = swapOp t c := by
  have := (makeGate_spec (make_SWAP h 0)).2.2.2
  simp [stdGate, h] at this
  exact this.symm
theorem op_gH (t : ℕ) : (gH t).op = ((1 / Real.sqrt 2 : ℝ) : ℂ) • (opX t + opZ t) := by
  have := (makeGate_spec (make_H t 0)).2.2.2
  simp [stdGate] at this
  rw [← this]; simp

theorem exact_CR {t c : ℕ} (h : t ≠ c) (θ : ℝ) : ExactGate (gCR t c θ) := by
  have hm := make_CR h θ
  refine ⟨api_unitary (.make hm), made_fast (made_of_makeGate hm) (by decide), ?_⟩
  refine .matC .one .zero .zero fun _ => ?_
  rw [mul_comm, Complex.norm_exp_ofReal_mul_I]; norm_num

theorem exact_SWAP {t c : ℕ} (h : t ≠ c) : ExactGate (gSWAP t c) := (C08_hypotheses_constant_gates (make_SWAP h 0) rfl).1

/-! ### the circuit as a list -/

/-- controlled phases on qubit `j` -/
noncomputable def crs (j m : ℕ) : Circuit := (List.range m).map fun i => gCR j (j + 1 + i) (2 * Real.pi / 2 ^ (i + 2))

/-- stages `j, j+1, …` with `d` qubits left -/
noncomputable def stages : ℕ → ℕ → Circuit
  | _, 0 => []
  | j, d + 1 => gH j :: crs j d ++ stages (j + 1) d

def swaps (na L m : ℕ) : Circuit := (List.range m).map fun i => gSWAP (i + na) (L - 1 - i + na)

theorem foldlM_addGate {α : Type} (f : α → Except Exc Gate) (g : α → Gate) (l : List α) (h : ∀ x ∈ l, f x = .ok (g x)) (c : Circuit) :
    l.foldlM (fun c x => do let y ← f x; pure (Circuit.addGate c y)) c = (.ok (c ++ l.map g) : Except Exc Circuit) := by
  induction l generalizing c with
  | nil => simp; rfl
  | cons x l ih =>
    rw [List.foldlM_cons, h x (by simp)]
    simp only [except_ok_bind, pure, Except.pure] at ih ⊢
    rw [ih (fun y hy => h y (by simp [hy]))]
    simp [Circuit.addGate]

theorem qftLoop_ok (na L : ℕ) : qftLoop na L = .ok (stages na L) := by
  have h1 : ∀ (c : Circuit) (j m : ℕ), (List.range' 2 m).foldlM (fun c k => (do
      let g ← pyGate3 "cR" (j + na) (j + k - 1 + na) ((2 * Real.pi / 2 ^ k : ℝ) : ℂ)
      pure (Circuit.addGate c g) : Except Exc Circuit)) c = .ok (c ++ crs (j + na) m) := by
    intro c j m
    rw [foldlM_addGate _ (fun k => gCR (j + na) (j + k - 1 + na) (2 * Real.pi / 2 ^ k))]
    · congr 2
      rw [crs, List.range'_eq_map_range, List.map_map]
      apply List.map_congr_left
      intro i _
      simp only [Function.comp]
      rw [show j + (2 + i) - 1 + na = j + na + 1 + i by omega, show 2 + i = i + 2 by omega]
    · intro k hk
      have := List.mem_range'_1.1 hk
      rw [py3_real]; exact make_CR (by omega) _
  have h2 : ∀ (d j : ℕ) (c : Circuit) (l : List ℕ), (∀ i, i < d → l[i]? = some (j + i)) → l.length = d → j + d = L →
      l.foldlM (fun c j => (do
        let h ← pyGate2 "H" (j + na) (j + na)
        (List.range' 2 (L + 1 - j - 2)).foldlM (fun c k => do
          let g ← pyGate3 "cR" (j + na) (j + k - 1 + na) ((2 * Real.pi / 2 ^ k : ℝ) : ℂ)
          pure (Circuit.addGate c g)) (Circuit.addGate c h) : Except Exc Circuit)) c = .ok (c ++ stages (j + na) d) := by
    intro d
    induction d with
    | zero => intro j c l _ hl _; rw [List.length_eq_zero_iff.1 hl]; simp [stages]; rfl
    | succ d ih =>
      intro j c l hl hlen hj
      cases l with
      | nil => simp at hlen
      | cons x l =>
        have hx : x = j := by have := hl 0 (by omega); simpa using this
        subst hx
        rw [List.foldlM_cons, py_H, except_ok_bind, h1, except_ok_bind, ih (x + 1)]
        · rw [show L + 1 - x - 2 = d by omega, stages, show x + 1 + na = x + na + 1 by omega]
          simp [Circuit.addGate]
        · intro i hi
          have := hl (i + 1) (by omega)
          rw [List.getElem?_cons_succ] at this
          rw [this]; congr 1; omega
        · simpa using hlen
        · omega
  unfold qftLoop
  have := h2 L 0 [] (List.range L) (by intro i hi; simp [List.getElem?_range hi]) (by simp) (by omega)
  simpa using this

theorem qftSwaps_ok (na L : ℕ) (c : Circuit) : qftSwaps na L c = .ok (c ++ swaps na L (L / 2)) := by
  unfold qftSwaps
  rw [show (if L % 2 = 0 then L / 2 else (L - 1) / 2) = L / 2 by split_ifs <;> omega]
  rw [foldlM_addGate _ (fun i => gSWAP (i + na) (L - 1 - i + na))]
  · rfl
  · intro i hi
    have := List.mem_range.1 hi
    unfold pyGate2; rw [if_pos (by decide)]; exact make_SWAP (by omega) 0

noncomputable def qftList (na L : ℕ) : Circuit := stages na L ++ swaps na L (L / 2)

theorem qftCircuit_eq (na nb : ℕ) (dir : String) : qftCircuit na nb dir =
    if dir = "forward" then .ok (qftList na (nb + 1 - na))
    else if dir = "reverse" then .ok (qftList na (nb + 1 - na)).adjoint else .error .valueError := by
  unfold qftCircuit
  simp only []
  rw [qftLoop_ok, except_ok_bind, qftSwaps_ok, except_ok_bind]
  rfl

theorem stages_gates : ∀ (d j : ℕ), ∀ g ∈ stages j d, ApiGate g ∧ ExactGate g ∧ g.target < j + d ∧ g.control < j + d := by
  intro d
  induction d with
  | zero => intro j g hg; cases hg
  | succ d ih =>
    intro j g hg
    rw [stages] at hg
    rcases List.mem_append.1 hg with hg | hg
    · rcases List.mem_cons.1 hg with rfl | hg
      · exact ⟨.make (make_H j 0), exact_H j, by show j < _; omega, by show j < _; omega⟩
      · obtain ⟨i, hi, rfl⟩ := List.mem_map.1 hg
        have := List.mem_range.1 hi
        exact ⟨.make (make_CR (by omega) _), exact_CR (by omega) _, by show j < _; omega, by show j + 1 + i < _; omega⟩
    · obtain ⟨h1, h2, h3, h4⟩ := ih (j + 1) g hg
      exact ⟨h1, h2, by omega, by omega⟩

theorem qftList_gates (na L : ℕ) : ∀ g ∈ qftList na L, ApiGate g ∧ ExactGate g ∧ g.target < na + L ∧ g.control < na + L := by
  intro g hg
  rcases List.mem_append.1 hg with hg | hg
  · exact stages_gates L na g hg
  · obtain ⟨i, hi, rfl⟩ := List.mem_map.1 hg
    have := List.mem_range.1 hi
    exact ⟨.make (make_SWAP (by omega) 0), exact_SWAP (by omega), by show i + na < _; omega, by show L - 1 - i + na < _; omega⟩

/-! ### what the stages do -/

/-- `exp(2πi x)` -/
noncomputable def ee (x : ℝ) : ℂ := Complex.exp (2 * Real.pi * Complex.I * x)

theorem ee_add (x y : ℝ) : ee (x + y) = ee x * ee y := by
  unfold ee; rw [← Complex.exp_add]; congr 1; push_cast; ring
theorem ee_nat (n : ℕ) : ee n = 1 := by
  unfold ee; rw [Complex.exp_eq_one_iff]; exact ⟨n, by push_cast; ring⟩
theorem ee_zero : ee 0 = 1 := by simpa using ee_nat 0

/-- little-endian value of a block -/
def leVal (I j d : ℕ) : ℕ := ∑ i ∈ Finset.range d, (I.testBit (j + i)).toNat * 2 ^ i

theorem leVal_succ (I j d : ℕ) : leVal I j (d + 1) = (I.testBit j).toNat + 2 * leVal I (j + 1) d := by
  unfold leVal
  rw [Finset.sum_range_succ', add_comm, Finset.mul_sum]
  congr 1
  · simp
  · apply Finset.sum_congr rfl
    intro i _
    rw [show j + (i + 1) = j + 1 + i by omega, pow_succ]; ring

theorem blockVal_succ (I j d : ℕ) : blockVal I j (d + 1) = (I.testBit j).toNat * 2 ^ d + blockVal I (j + 1) d := by
  unfold blockVal
  rw [Finset.sum_range_succ', add_comm]
  congr 1
  apply Finset.sum_congr rfl
  intro i hi
  have := Finset.mem_range.1 hi
  rw [show j + (i + 1) = j + 1 + i by omega, show d + 1 - 1 - (i + 1) = d - 1 - i by omega]

theorem blockVal_congr {I J na L : ℕ} (h : ∀ q, na ≤ q → q < na + L → I.testBit q = J.testBit q) : blockVal I na L = blockVal J na L := by
  unfold blockVal
  apply Finset.sum_congr rfl
  intro i hi
  have := Finset.mem_range.1 hi
  rw [h _ (by omega) (by omega)]

theorem blockVal_setBlock (I : ℕ) : ∀ (L na x : ℕ), x < 2 ^ L → blockVal (setBlock I na L x) na L = x := by
  have key : ∀ (L na x K : ℕ), (∀ i, i < L → K.testBit (na + i) = x.testBit (L - 1 - i)) → blockVal K na L = x % 2 ^ L := by
    intro L
    induction L with
    | zero => intro na x K _; simp [blockVal, Nat.mod_one]
    | succ L ih =>
      intro na x K h
      rw [blockVal_succ, ih (na + 1) x K (fun i hi => by
        rw [show na + 1 + i = na + (i + 1) by omega, h (i + 1) (by omega)]; congr 1; omega)]
      have h0 := h 0 (by omega)
      simp at h0
      rw [h0, Nat.mod_pow_succ, Nat.testBit_eq_decide_div_mod_eq]
      rcases Nat.mod_two_eq_zero_or_one (x / 2 ^ L) with e | e <;> simp [e] <;> omega
  intro L na x hx
  rw [key L na x, Nat.mod_eq_of_lt hx]
  intro i hi
  rw [setBlock_testBit, if_pos (by omega)]
  congr 1; omega

theorem blockVal_lt (I : ℕ) : ∀ (L na : ℕ), blockVal I na L < 2 ^ L := by
  intro L
  induction L with
  | zero => intro na; simp [blockVal]
  | succ L ih =>
    intro na
    rw [blockVal_succ, pow_succ]
    have := ih (na + 1)
    cases I.testBit na <;> simp <;> omega

theorem cr_apply {t c : ℕ} (h : t ≠ c) (x : ℝ) (ψ : St) (I : ℕ) :
    ctrlOp c true (phaseOp t (2 * Real.pi * x)) ψ I = ee ((I.testBit t).toNat * ((I.testBit c).toNat * x)) * ψ I := by
  rw [ctrlOp_apply]
  have hp : phaseOp t (2 * Real.pi * x) ψ I = if I.testBit t then ee x * ψ I else ψ I := by
    unfold phaseOp ee
    simp only [LinearMap.add_apply, LinearMap.smul_apply, Pi.add_apply, Pi.smul_apply, proj_apply, smul_eq_mul]
    cases I.testBit t <;> simp
    left; ring_nf
  rw [hp]
  cases h1 : I.testBit t <;> cases h2 : I.testBit c <;> simp [ee_zero]

theorem crs_apply (j m : ℕ) (ψ : St) (I : ℕ) :
    Circuit.op (crs j m) ψ I = ee ((I.testBit j).toNat * ((blockVal I (j + 1) m : ℝ) / 2 ^ (m + 1))) * ψ I := by
  induction m generalizing ψ with
  | zero => simp [crs, blockVal, ee_zero]
  | succ m ih =>
    rw [crs, List.range_succ, List.map_append, Circuit.op_append]
    simp only [List.map_cons, List.map_nil, Circuit.op_cons, Circuit.op_nil, one_mul, Module.End.mul_apply]
    rw [op_gCR (by omega), show 2 * Real.pi / 2 ^ (m + 2) = 2 * Real.pi * (1 / 2 ^ (m + 2)) by ring, cr_apply (by omega)]
    have := ih ψ
    rw [crs] at this
    rw [this, ← mul_assoc, ← ee_add]
    congr 2
    have hv : blockVal I (j + 1) (m + 1) = 2 * blockVal I (j + 1) m + (I.testBit (j + 1 + m)).toNat := by
      unfold blockVal
      rw [Finset.sum_range_succ, Finset.mul_sum]
      congr 1
      · apply Finset.sum_congr rfl
        intro i hi
        have := Finset.mem_range.1 hi
        rw [show m + 1 - 1 - i = (m - 1 - i) + 1 by omega, pow_succ]; ring
      · simp
    rw [hv]
    push_cast
    rw [pow_succ (2 : ℝ) (m + 1)]
    have : (2 : ℝ) ^ (m + 1) ≠ 0 := by positivity
    field_simp
    ring

theorem stage_apply (j d : ℕ) (ψ : St) (I : ℕ) :
    Circuit.op (gH j :: crs j d) ψ I = ((1 / Real.sqrt 2 : ℝ) : ℂ) *
      (ee ((I.testBit j).toNat * (blockVal I (j + 1) d / 2 ^ (d + 1))) * ψ (setBit I j false) +
       ee ((I.testBit j).toNat * ((2 ^ d + blockVal I (j + 1) d) / 2 ^ (d + 1))) * ψ (setBit I j true)) := by
  rw [Circuit.op_cons, Module.End.mul_apply, crs_apply, op_gH]
  simp only [LinearMap.smul_apply, LinearMap.add_apply, Pi.smul_apply, Pi.add_apply, opX_apply, opZ_apply, smul_eq_mul]
  have hhalf : ee (1 / 2) = -1 := by
    unfold ee
    rw [show (2 * Real.pi * Complex.I * ((1 / 2 : ℝ) : ℂ) : ℂ) = Real.pi * Complex.I by push_cast; ring, Complex.exp_pi_mul_I]
  have e2 : ∀ x : ℝ, ee ((2 ^ d + x) / 2 ^ (d + 1)) = - ee (x / 2 ^ (d + 1)) := by
    intro x
    rw [show (2 ^ d + x) / 2 ^ (d + 1) = 1 / 2 + x / 2 ^ (d + 1) by rw [pow_succ]; field_simp, ee_add, hhalf]; ring
  have hf := flipBit_eq I j
  cases h : I.testBit j
  · rw [h] at hf
    rw [hf, setBit_eq_self h]; simp [ee_zero]; ring
  · rw [h] at hf
    rw [hf, setBit_eq_self h]; simp [e2]; ring

theorem setBlock_congr_mod (I : ℕ) (L na x : ℕ) : setBlock I na L (x % 2 ^ L) = setBlock I na L x := by
  apply eq_of_bits; intro q
  rw [setBlock_testBit, setBlock_testBit]
  split_ifs with h
  · rw [Nat.testBit_mod_two_pow]
    simp; omega
  · rfl

theorem sqrt_two_pow (d : ℕ) : Real.sqrt (2 ^ (d + 1)) = Real.sqrt (2 ^ d) * Real.sqrt 2 := by
  rw [pow_succ, Real.sqrt_mul (by positivity)]

theorem stages_apply : ∀ (d j : ℕ) (ψ : St) (I : ℕ), Circuit.op (stages j d) ψ I =
    ((1 / Real.sqrt (2 ^ d) : ℝ) : ℂ) * ∑ x ∈ Finset.range (2 ^ d), ee ((x * leVal I j d : ℝ) / 2 ^ d) * ψ (setBlock I j d x) := by
  intro d
  induction d with
  | zero => intro j ψ I; simp [stages, leVal, ee_zero, setBlock]
  | succ d ih =>
    intro j ψ I
    rw [stages, Circuit.op_append, Module.End.mul_apply, ih]
    rw [show 2 ^ (d + 1) = 2 ^ d + 2 ^ d by rw [pow_succ]; ring, Finset.sum_range_add, ← Finset.sum_add_distrib, sqrt_two_pow,
      Finset.mul_sum, Finset.mul_sum]
    apply Finset.sum_congr rfl
    intro x hx
    have hx := Finset.mem_range.1 hx
    rw [stage_apply, blockVal_setBlock I d (j + 1) x hx]
    have hb : (setBlock I (j + 1) d x).testBit j = I.testBit j := by
      rw [setBlock_testBit, if_neg (by omega)]
    have s0 : setBit (setBlock I (j + 1) d x) j false = setBlock I j (d + 1) x := by
      rw [setBlock, Nat.testBit_lt_two_pow hx]
    have s1 : setBit (setBlock I (j + 1) d x) j true = setBlock I j (d + 1) (2 ^ d + x) := by
      rw [setBlock]
      congr 1
      · rw [← setBlock_congr_mod I d (j + 1) (2 ^ d + x), Nat.add_mod_left, Nat.mod_eq_of_lt hx]
      · rw [Nat.testBit_two_pow_add_eq, Nat.testBit_lt_two_pow hx]; rfl
    rw [hb, s0, s1, leVal_succ]
    have p1 : ee ((x * leVal I (j + 1) d : ℝ) / 2 ^ d) * ee ((I.testBit j).toNat * (x / 2 ^ (d + 1))) =
        ee ((x : ℝ) * (((I.testBit j).toNat + 2 * leVal I (j + 1) d : ℕ) : ℝ) / 2 ^ (d + 1)) := by
      rw [← ee_add]; congr 1; push_cast; rw [pow_succ]; field_simp; ring
    have p2 : ee ((x * leVal I (j + 1) d : ℝ) / 2 ^ d) * ee ((I.testBit j).toNat * ((2 ^ d + x) / 2 ^ (d + 1))) =
        ee (((2 ^ d + x : ℕ) : ℝ) * (((I.testBit j).toNat + 2 * leVal I (j + 1) d : ℕ) : ℝ) / 2 ^ (d + 1)) := by
      have : ee (((2 ^ d + x : ℕ) : ℝ) * (((I.testBit j).toNat + 2 * leVal I (j + 1) d : ℕ) : ℝ) / 2 ^ (d + 1)) =
          ee (((x * leVal I (j + 1) d : ℝ) / 2 ^ d + (I.testBit j).toNat * ((2 ^ d + x) / 2 ^ (d + 1))) + (leVal I (j + 1) d : ℝ)) := by
        congr 1; push_cast; rw [pow_succ]; field_simp; ring
      rw [this, ee_add, ee_nat, mul_one, ee_add]
    rw [← p1, ← p2]
    push_cast
    have h2 : (Real.sqrt 2 : ℂ) ≠ 0 := by
      rw [Ne, Complex.ofReal_eq_zero, Real.sqrt_eq_zero (by norm_num)]; norm_num
    have h3 : (Real.sqrt (2 ^ d) : ℂ) ≠ 0 := by
      rw [Ne, Complex.ofReal_eq_zero, Real.sqrt_eq_zero (by positivity)]; positivity
    field_simp

/-! ### the swaps -/

/-- where bit `q` of the result comes from after `m` swaps -/
def mir (na L m q : ℕ) : ℕ :=
  if (na ≤ q ∧ q < na + m) ∨ (na + L - m ≤ q ∧ q < na + L) then 2 * na + L - 1 - q else q

theorem swapBits_testBit (I t c q : ℕ) (h : t ≠ c) : (swapBits I t c).testBit q =
    if q = t then I.testBit c else if q = c then I.testBit t else I.testBit q := by
  unfold swapBits
  rw [testBit_setBit, testBit_setBit]
  by_cases h1 : q = c
  · subst h1; rw [if_pos rfl, if_neg (Ne.symm h), if_pos rfl]
  · rw [if_neg h1, if_neg h1]

theorem swaps_apply (na L : ℕ) : ∀ m, 2 * m ≤ L → ∀ (ψ : St) (I : ℕ), ∃ R, Circuit.op (swaps na L m) ψ I = ψ R ∧
    ∀ q, R.testBit q = I.testBit (mir na L m q) := by
  intro m
  induction m with
  | zero =>
    intro _ ψ I
    refine ⟨I, rfl, fun q => ?_⟩
    unfold mir; rw [if_neg (by omega)]
  | succ m ih =>
    intro hm ψ I
    obtain ⟨R, h1, h2⟩ := ih (by omega) ψ (swapBits I (m + na) (L - 1 - m + na))
    refine ⟨R, ?_, ?_⟩
    · rw [swaps, List.range_succ, List.map_append, Circuit.op_append]
      simp only [List.map_cons, List.map_nil, Circuit.op_cons, Circuit.op_nil, one_mul, Module.End.mul_apply]
      rw [op_gSWAP (by omega)]
      exact h1
    · intro q
      rw [h2, swapBits_testBit _ _ _ _ (by omega)]
      by_cases c1 : q = m + na
      · subst c1
        have e1 : mir na L m (m + na) = m + na := if_neg (by omega)
        have e2 : mir na L (m + 1) (m + na) = 2 * na + L - 1 - (m + na) := if_pos (by omega)
        rw [e1, e2, if_pos rfl]
        congr 1; omega
      · by_cases c2 : q = L - 1 - m + na
        · subst c2
          have e1 : mir na L m (L - 1 - m + na) = L - 1 - m + na := if_neg (by omega)
          have e2 : mir na L (m + 1) (L - 1 - m + na) = 2 * na + L - 1 - (L - 1 - m + na) := if_pos (by omega)
          rw [e1, e2, if_neg c1, if_pos rfl]
          congr 1; omega
        · by_cases c3 : (na ≤ q ∧ q < na + m) ∨ (na + L - m ≤ q ∧ q < na + L)
          · have e1 : mir na L m q = 2 * na + L - 1 - q := if_pos c3
            have e2 : mir na L (m + 1) q = 2 * na + L - 1 - q := if_pos (by omega)
            rw [e1, e2, if_neg (by omega), if_neg (by omega)]
          · have e1 : mir na L m q = q := if_neg c3
            have e2 : mir na L (m + 1) q = q := if_neg (by omega)
            rw [e1, e2, if_neg c1, if_neg c2]

theorem qftList_dft (na L : ℕ) : IsDFT na L (Circuit.op (qftList na L)) := by
  intro ψ I
  rw [qftList, Circuit.op_append, Module.End.mul_apply]
  obtain ⟨R, h1, h2⟩ := swaps_apply na L (L / 2) (by omega) (Circuit.op (stages na L) ψ) I
  have hin : ∀ q, na ≤ q → q < na + L → R.testBit q = I.testBit (2 * na + L - 1 - q) := by
    intro q hq1 hq2
    rw [h2, mir]
    split_ifs with h
    · rfl
    · congr 1; omega
  have hout : ∀ q, ¬ (na ≤ q ∧ q < na + L) → R.testBit q = I.testBit q := by
    intro q hq
    rw [h2, mir, if_neg (by omega)]
  have hle : leVal R na L = blockVal I na L := by
    unfold leVal blockVal
    rw [← Finset.sum_range_reflect]
    apply Finset.sum_congr rfl
    intro i hi
    have := Finset.mem_range.1 hi
    rw [hin _ (by omega) (by omega)]
    congr 3; omega
  have hset : ∀ x, setBlock R na L x = setBlock I na L x := by
    intro x; apply eq_of_bits; intro q
    rw [setBlock_testBit, setBlock_testBit]
    split_ifs with h
    · rfl
    · exact hout q h
  rw [h1, stages_apply, hle]
  congr 1
  apply Finset.sum_congr rfl
  intro x _
  rw [hset]
  congr 1
  unfold ee
  congr 1
  push_cast
  ring

end QF
