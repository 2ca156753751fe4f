import Verif.Props.KrylovMono
import Verif.Lemmas.PauliIndep

/-!
The two-qubit instance used by C116 and C117: `H = X₀X₁ - 2Z₀ + Y₀Y₁`, which conserves the number of electrons, and the reference `|11⟩`.
-/
namespace QF

theorem opY_single (q I : ℕ) : opY q (Pi.single I 1) = (if I.testBit q then -Complex.I else Complex.I) • Pi.single (flipBit I q) 1 := by
  rw [show opY q = (-Complex.I) • (opZ q * opX q) by rw [opZ_opX, smul_smul]; simp]
  rw [LinearMap.smul_apply, Module.End.mul_apply, opX_single, opZ_single, smul_smul, testBit_flipBit]
  by_cases h : I.testBit q <;> simp [h]

noncomputable def sectorQk : QkAlg :=
  { nqb := 2, uprep := [gX 0, gX 1], ham := [(1, [gX 0, gX 1]), (-2, [gZ 0]), (1, [gY 0, gY 1])], nstates := 1, dt := Real.pi / 4 }

theorem sectorQk_ready (s : ℕ) : ({ sectorQk with nstates := s } : QkAlg).Ready := by
  refine ⟨⟨?_, ?_⟩, ?_, by simp [sectorQk]⟩
  · intro g hg
    simp only [sectorQk, List.mem_cons, List.not_mem_nil, or_false] at hg
    rcases hg with rfl | rfl <;> simp [gX, sectorQk]
  · intro g hg
    simp only [sectorQk, List.mem_cons, List.not_mem_nil, or_false] at hg
    rcases hg with rfl | rfl
    · exact (pauliGate_X 0).exact
    · exact (pauliGate_X 1).exact
  · intro t ht
    simp only [sectorQk, List.mem_cons, List.not_mem_nil, or_false] at ht
    rcases ht with rfl | rfl | rfl
    · refine ⟨by simp, ⟨?_, by simp [gX], ?_⟩⟩
      · intro g hg
        simp only [List.mem_cons, List.not_mem_nil, or_false] at hg
        rcases hg with rfl | rfl
        · exact pauliGate_X 0
        · exact pauliGate_X 1
      · intro g hg
        simp only [List.mem_cons, List.not_mem_nil, or_false] at hg
        rcases hg with rfl | rfl <;> simp [gX, sectorQk]
    · refine ⟨by simp, ⟨?_, by simp, ?_⟩⟩
      · intro g hg
        simp only [List.mem_cons, List.not_mem_nil, or_false] at hg
        subst hg; exact pauliGate_Z 0
      · intro g hg
        simp only [List.mem_cons, List.not_mem_nil, or_false] at hg
        subst hg; simp [gZ, sectorQk]
    · refine ⟨by simp, ⟨?_, by simp [gY], ?_⟩⟩
      · intro g hg
        simp only [List.mem_cons, List.not_mem_nil, or_false] at hg
        rcases hg with rfl | rfl
        · exact pauliGate_Y 0
        · exact pauliGate_Y 1
      · intro g hg
        simp only [List.mem_cons, List.not_mem_nil, or_false] at hg
        rcases hg with rfl | rfl <;> simp [gY, sectorQk]

theorem sectorQk_ham : sectorQk.ham.op = opX 1 * opX 0 + ((-2 : ℂ) • opZ 0 + opY 1 * opY 0) := by
  simp [sectorQk, QubitOperator.op, Circuit.op_cons, Circuit.op_nil]

theorem flips : flipBit 3 0 = 2 ∧ flipBit 2 1 = 0 ∧ flipBit 0 0 = 1 ∧ flipBit 1 1 = 3 ∧ flipBit 0 1 = 2 ∧ flipBit 2 0 = 3 ∧ flipBit 1 0 = 0 ∧ flipBit 3 1 = 1 := by decide

theorem xx3 : (opX 1 * opX 0) (Pi.single 3 1) = Pi.single 0 1 := by
  rw [Module.End.mul_apply, opX_single, flips.1, opX_single, flips.2.1]
theorem xx0 : (opX 1 * opX 0) (Pi.single 0 1) = Pi.single 3 1 := by
  rw [Module.End.mul_apply, opX_single, flips.2.2.1, opX_single, flips.2.2.2.1]
theorem yy3 : (opY 1 * opY 0) (Pi.single 3 1) = -Pi.single 0 1 := by
  rw [Module.End.mul_apply, opY_single, if_pos (by decide), map_smul, flips.1, opY_single, flips.2.1, if_pos (by decide), smul_smul]
  simp
theorem yy0 : (opY 1 * opY 0) (Pi.single 0 1) = -Pi.single 3 1 := by
  rw [Module.End.mul_apply, opY_single, if_neg (by decide), map_smul, flips.2.2.1, opY_single, flips.2.2.2.1, if_neg (by decide), smul_smul]
  simp
theorem z3 : opZ 0 (Pi.single 3 1) = -Pi.single 3 1 := by rw [opZ_single, if_pos (by decide)]; simp
theorem z0 : opZ 0 (Pi.single 0 1) = Pi.single 0 1 := by rw [opZ_single, if_neg (by decide)]; simp

theorem sectorQk_ref : sectorQk.uprep.op (Computer.init 2).psi = Pi.single 3 1 := by
  rw [(C60_init 2).2]
  simp only [sectorQk, Circuit.op_cons, Circuit.op_nil, one_mul, op_gX]
  rw [Module.End.mul_apply, opX_single, flips.2.2.1, opX_single, flips.2.2.2.1]

theorem sectorQk_H3 : sectorQk.ham.op (Pi.single 3 1) = (2 : ℂ) • Pi.single 3 1 := by
  rw [sectorQk_ham, LinearMap.add_apply, LinearMap.add_apply, LinearMap.smul_apply, xx3, yy3, z3]; module

theorem sectorQk_H0 : sectorQk.ham.op (Pi.single 0 1) = (-2 : ℂ) • Pi.single 0 1 := by
  rw [sectorQk_ham, LinearMap.add_apply, LinearMap.add_apply, LinearMap.smul_apply, xx0, yy0, z0]; module

/-- the Trotterised evolution over `π/4` turns `|11⟩` into `|00⟩` -/
theorem sectorQk_step {ψ : St} (h : TrotterState sectorQk.ham 1 (Real.pi / 4) (Pi.single 3 1) ψ) : ψ = Pi.single 0 1 := by
  obtain ⟨Us, h1, rfl⟩ := h
  obtain ⟨U1, Us1, u1, h2, rfl⟩ := List.forall₂_cons_left_iff.1 h1
  obtain ⟨U2, Us2, u2, h3, rfl⟩ := List.forall₂_cons_left_iff.1 h2
  obtain ⟨U3, Us3, u3, h4, rfl⟩ := List.forall₂_cons_left_iff.1 h3
  cases h4
  have hX : (opX 1 * opX 0) * (opX 1 * opX 0) = (1 : Op) := by
    have := ipauli_sq (c := [gX 0, gX 1]) ⟨fun g hg => by
      simp only [List.mem_cons, List.not_mem_nil, or_false] at hg
      rcases hg with rfl | rfl
      · exact ⟨.inr (pauliGate_X 0).letter, (pauliGate_X 0).make⟩
      · exact ⟨.inr (pauliGate_X 1).letter, (pauliGate_X 1).make⟩, by simp [gX]⟩
    simpa [Circuit.op_cons, Circuit.op_nil] using this
  have hY : (opY 1 * opY 0) * (opY 1 * opY 0) = (1 : Op) := by
    have := ipauli_sq (c := [gY 0, gY 1]) ⟨fun g hg => by
      simp only [List.mem_cons, List.not_mem_nil, or_false] at hg
      rcases hg with rfl | rfl
      · exact ⟨.inr (pauliGate_Y 0).letter, (pauliGate_Y 0).make⟩
      · exact ⟨.inr (pauliGate_Y 1).letter, (pauliGate_Y 1).make⟩, by simp [gY]⟩
    simpa [Circuit.op_cons, Circuit.op_nil] using this
  simp only [Circuit.op_cons, Circuit.op_nil, one_mul, op_gX, op_gY, op_gZ] at u1 u2 u3
  have c4 : Complex.cosh (-Complex.I * ((Real.pi / 4 : ℝ) : ℂ) * 1 / ((1 : ℤ) : ℂ)) = ((√2 / 2 : ℝ) : ℂ) := by
    rw [show -Complex.I * ((Real.pi / 4 : ℝ) : ℂ) * 1 / ((1 : ℤ) : ℂ) = ((-(Real.pi / 4) : ℝ) : ℂ) * Complex.I by push_cast; ring, Complex.cosh_mul_I,
      ← Complex.ofReal_cos, Real.cos_neg, Real.cos_pi_div_four]
  have s4 : Complex.sinh (-Complex.I * ((Real.pi / 4 : ℝ) : ℂ) * 1 / ((1 : ℤ) : ℂ)) = -(((√2 / 2 : ℝ) : ℂ) * Complex.I) := by
    rw [show -Complex.I * ((Real.pi / 4 : ℝ) : ℂ) * 1 / ((1 : ℤ) : ℂ) = ((-(Real.pi / 4) : ℝ) : ℂ) * Complex.I by push_cast; ring, Complex.sinh_mul_I,
      ← Complex.ofReal_sin, Real.sin_neg, Real.sin_pi_div_four]
    push_cast; ring
  have c2 : Complex.cosh (-Complex.I * ((Real.pi / 4 : ℝ) : ℂ) * (-2) / ((1 : ℤ) : ℂ)) = 0 := by
    rw [show -Complex.I * ((Real.pi / 4 : ℝ) : ℂ) * (-2) / ((1 : ℤ) : ℂ) = ((Real.pi / 2 : ℝ) : ℂ) * Complex.I by push_cast; ring, Complex.cosh_mul_I,
      ← Complex.ofReal_cos, Real.cos_pi_div_two]; simp
  have s2 : Complex.sinh (-Complex.I * ((Real.pi / 4 : ℝ) : ℂ) * (-2) / ((1 : ℤ) : ℂ)) = Complex.I := by
    rw [show -Complex.I * ((Real.pi / 4 : ℝ) : ℂ) * (-2) / ((1 : ℤ) : ℂ) = ((Real.pi / 2 : ℝ) : ℂ) * Complex.I by push_cast; ring, Complex.sinh_mul_I,
      ← Complex.ofReal_sin, Real.sin_pi_div_two]; simp
  have e1 := u1.unique (isExp_invol hX _)
  have e2 := u2.unique (isExp_invol (opZ_sq 0) _)
  have e3 := u3.unique (isExp_invol hY _)
  rw [c4, s4] at e1 e3
  rw [c2, s2] at e2
  have hr : (((√2 / 2 : ℝ) : ℂ)) * ((√2 / 2 : ℝ) : ℂ) = 1 / 2 := by
    rw [← Complex.ofReal_mul, show √2 / 2 * (√2 / 2) = (√2 * √2) / 4 by ring, Real.mul_self_sqrt (by norm_num)]; push_cast; norm_num
  have f1 : U1 (Pi.single 3 1) = ((√2 / 2 : ℝ) : ℂ) • (Pi.single 3 1 - Complex.I • Pi.single 0 1) := by
    rw [e1, LinearMap.add_apply, LinearMap.smul_apply, LinearMap.smul_apply, xx3, Module.End.one_apply]; module
  have f2 : U2 (Pi.single 3 1 - Complex.I • Pi.single 0 1) = Pi.single 0 1 - Complex.I • Pi.single 3 1 := by
    rw [e2, LinearMap.add_apply, LinearMap.smul_apply, LinearMap.smul_apply, LinearMap.map_sub (opZ 0), LinearMap.map_smul (opZ 0), z3, z0]
    have : (0 : ℂ) • (1 : Op) (Pi.single 3 1 - Complex.I • Pi.single 0 1 : St) + Complex.I • (-(Pi.single 3 1 : St) - Complex.I • Pi.single 0 1) =
        -(Complex.I * Complex.I) • (Pi.single 0 1 : St) - Complex.I • Pi.single 3 1 := by rw [zero_smul]; module
    rw [this, Complex.I_mul_I]; module
  have f3 : U3 (Pi.single 0 1 - Complex.I • Pi.single 3 1) = (((√2 / 2 : ℝ) : ℂ) * 2) • Pi.single 0 1 := by
    rw [e3, LinearMap.add_apply, LinearMap.smul_apply, LinearMap.smul_apply, LinearMap.map_sub (opY 1 * opY 0), LinearMap.map_smul (opY 1 * opY 0), yy3, yy0, Module.End.one_apply]
    generalize ((√2 / 2 : ℝ) : ℂ) = r
    have : -(r * Complex.I) • (-(Pi.single 3 1 : St) - Complex.I • -Pi.single 0 1) = (r * Complex.I) • Pi.single 3 1 - (r * (Complex.I * Complex.I)) • Pi.single 0 1 := by module
    rw [this, Complex.I_mul_I]; module
  have : (applyInOrder [U1, U2, U3] ^ (1 : ℤ).toNat) (Pi.single 3 1) = U3 (U2 (U1 (Pi.single 3 1))) := by
    simp [applyInOrder]
  rw [this, f1, map_smul, map_smul, f2, f3, smul_smul, ← mul_assoc, hr]
  norm_num

/-- the two Krylov vectors of the example are the determinants `|11⟩` and `|00⟩` -/
theorem sectorQk_states {ψ : ℕ → St} (h : ∀ m : ℕ, TrotterState sectorQk.ham sectorQk.trotterNumber (m * sectorQk.dt) (sectorQk.uprep.op (Computer.init sectorQk.nqb).psi) (ψ m)) :
    ψ 0 = Pi.single 3 1 ∧ ψ 1 = Pi.single 0 1 := by
  rw [show sectorQk.nqb = 2 from rfl, sectorQk_ref] at h
  constructor
  · have := h 0
    rw [Nat.cast_zero, zero_mul] at this
    exact trotterState_zero this
  · have := h 1
    rw [Nat.cast_one, one_mul] at this
    exact sectorQk_step this

/-- the eigenvalues of an identity matrix -/
theorem eig_identity {n : ℕ} {S : NMat} (hS : ∀ i < n, ∀ j < n, S i j = if i = j then 1 else 0) {r : List ℂ × NMat} (h : EigOf n S r) (ho : Orthonormal' n n r.2) :
    ∀ z ∈ r.1, z = 1 := by
  intro z hz
  obtain ⟨j, hj, rfl⟩ := List.getElem_of_mem hz
  have hj' : j < n := h.1 ▸ hj
  have hd : ∀ i < n, S.dot n r.2 i j = r.2 i j := fun i hi => by
    unfold NMat.dot
    rw [Finset.sum_eq_single i]
    · rw [hS i hi i hi, if_pos rfl, one_mul]
    · intro b hb hne; rw [hS i hi b (Finset.mem_range.1 hb), if_neg (Ne.symm hne), zero_mul]
    · intro hn; exact absurd (Finset.mem_range.2 hi) hn
  by_contra hne
  have hz : ∀ i < n, r.2 i j = 0 := fun i hi => by
    have := h.2 i hi j hj'
    rw [hd i hi, List.getD_eq_getElem _ _ hj] at this
    have h2 : (r.1[j] - 1) * r.2 i j = 0 := by rw [sub_mul, one_mul, ← this, sub_self]
    exact (mul_eq_zero.1 h2).resolve_left (sub_ne_zero.2 hne)
  have := ho j hj' j hj'
  rw [if_pos rfl] at this
  unfold NMat.dot at this
  rw [Finset.sum_eq_zero (fun i hi => by rw [hz i (Finset.mem_range.1 hi), mul_zero])] at this
  exact zero_ne_one this

theorem sectorQk_mats : ∃ S H : NMat, ({ sectorQk with nstates := 2 } : QkAlg).srqkMats = .ok (S, H) ∧ (∀ i < 2, ∀ j < 2, S i j = if i = j then 1 else 0) ∧
    GramOf 2 2 sectorQk.ham.op (fun m => if m = 0 then Pi.single 3 1 else Pi.single 0 1) S H := by
  obtain ⟨S, H, ψ, e, hψ, hM⟩ := C77_srqk { sectorQk with nstates := 2 } (sectorQk_ready 2) (by decide)
  obtain ⟨p0, p1⟩ := sectorQk_states hψ
  have hp : ∀ m < 2, ψ m = if m = 0 then Pi.single 3 1 else Pi.single 0 1 := by
    intro m hm
    obtain rfl | rfl : m = 0 ∨ m = 1 := by omega
    · rw [p0, if_pos rfl]
    · rw [p1, if_neg (by decide)]
  have hin : ∀ I < 4, ∀ J < 4, inner 2 (Pi.single I 1) (Pi.single J 1) = if I = J then 1 else 0 := by
    intro I hI J hJ
    unfold inner
    rw [Finset.sum_eq_single J]
    · by_cases h : I = J
      · subst h; simp
      · rw [if_neg h, Pi.single_eq_of_ne (Ne.symm h)]; simp
    · intro K _ hK; rw [Pi.single_eq_of_ne (M := fun _ => ℂ) hK, mul_zero]
    · intro hn; exact absurd (Finset.mem_range.2 hJ) hn
  refine ⟨S, H, e, fun i hi j hj => ?_, fun i hi j hj => ?_, fun i hi j hj => ?_⟩
  · rw [(hM i hi j hj).1, hp i hi, hp j hj]
    show inner 2 _ _ = _
    obtain rfl | rfl : i = 0 ∨ i = 1 := by omega
    all_goals obtain rfl | rfl : j = 0 ∨ j = 1 := by omega
    all_goals simp only [if_true, if_false, one_ne_zero, zero_ne_one, hin _ (show 0 < 4 by decide) _ (show 0 < 4 by decide), hin _ (show 0 < 4 by decide) _ (show 3 < 4 by decide),
      hin _ (show 3 < 4 by decide) _ (show 0 < 4 by decide), hin _ (show 3 < 4 by decide) _ (show 3 < 4 by decide)]
    all_goals simp
  · rw [(hM i hi j hj).1, hp i hi, hp j hj]; rfl
  · rw [(hM i hi j hj).2, hp i hi, hp j hj]; rfl

theorem energy_single {H : Op} {I : ℕ} (hI : I < 4) {e : ℝ} (h : H (Pi.single I 1) = (e : ℂ) • Pi.single I 1) : energy 2 H (Pi.single I 1) = e := by
  unfold energy
  rw [h, inner_smulR]
  have : inner 2 (Pi.single I 1) (Pi.single I 1) = 1 := by
    unfold inner
    rw [Finset.sum_eq_single I]
    · simp
    · intro K _ hK; rw [Pi.single_eq_of_ne (M := fun _ => ℂ) hK, mul_zero]
    · intro hn; exact absurd (Finset.mem_range.2 hI) hn
  rw [this]
  simp

/-- C116, a concrete case: the calculation with the single reference `|11⟩` gives 2; adding the second state, none of whose directions is dropped, gives at most -2. -/
theorem C116_example {eig : EigOracle} (hE : DescEig eig) : sectorQk.Ready ∧ sectorQk.nstates = 1 ∧ ∃ S' H' R R', ({ sectorQk with nstates := 2 } : QkAlg).srqkMats = .ok (S', H') ∧
    (∀ z ∈ (eig 2 S').1, 1e-15 < z.re) ∧ sectorQk.srqkRun eig 0 = .ok R ∧ ({ sectorQk with nstates := 2 } : QkAlg).srqkRun eig 0 = .ok R' ∧ R.egs = 2 ∧ R'.egs ≤ -2 := by
  have hp : ∀ g ∈ sectorQk.uprep, ApiGate g := by
    intro g hg
    simp only [sectorQk, List.mem_cons, List.not_mem_nil, or_false] at hg
    rcases hg with rfl | rfl
    · exact .make (pauliGate_X 0).make
    · exact .make (pauliGate_X 1).make
  obtain ⟨S', H', e', i', g'⟩ := sectorQk_mats
  have hfull : ∀ z ∈ (eig 2 S').1, 1e-15 < z.re := by
    obtain ⟨q1, q2, -⟩ := hE 2 S' (fun i hi j hj => by
      rw [i' i hi j hj, i' j hj i hi]
      by_cases h : i = j
      · subst h; simp
      · rw [if_neg h, if_neg (Ne.symm h)]; simp)
    intro z hz
    rw [eig_identity i' q1 q2 z hz]
    norm_num
  have href : energy 2 sectorQk.ham.op (Pi.single 3 1) = 2 := energy_single (by decide) (by rw [sectorQk_H3]; norm_num)
  have hin3 : inner 2 (Pi.single 3 1) (Pi.single 3 1) = 1 := by
    unfold inner
    rw [Finset.sum_eq_single 3]
    · simp
    · intro K _ hK; rw [Pi.single_eq_of_ne (M := fun _ => ℂ) hK, mul_zero]
    · intro hn; exact absurd (Finset.mem_range.2 (by decide)) hn
  obtain ⟨S, H, ψ, rank, e, hr, h0, hψ, run, -⟩ := C83_srqk hE sectorQk (sectorQk_ready 1) hp (by decide) 0
  obtain ⟨S1, H1, ψ1, rank1, e1, hr1, h01, hψ1, run1, -⟩ := C83_srqk hE { sectorQk with nstates := 2 } (sectorQk_ready 2) hp (by decide) 0
  rw [e1] at e'
  cases e'
  have full : ∀ {n : ℕ} {S : NMat}, (∀ i < n, ∀ j < n, S i j = if i = j then 1 else 0) →
      ((eig n S).1.filter fun z => open Classical in decide (1e-15 < z.re)).length = n := by
    intro n S hS
    obtain ⟨q1, q2, -⟩ := hE n S (fun i hi j hj => by
      rw [hS i hi j hj, hS j hj i hi]
      by_cases h : i = j
      · subst h; simp
      · rw [if_neg h, if_neg (Ne.symm h)]; simp)
    rw [List.filter_eq_self.2 (by intro z hz; rw [eig_identity hS q1 q2 z hz]; norm_num), q1.1]
  have k1 : rank = 1 := by
    obtain ⟨S2, H2, ψ2, e2, hψ2, hM2⟩ := C77_srqk sectorQk (sectorQk_ready 1) (by decide)
    rw [e] at e2
    cases e2
    rw [hr]
    refine full (n := 1) fun i hi j hj => ?_
    obtain rfl : i = 0 := by omega
    obtain rfl : j = 0 := by omega
    rw [(hM2 0 hi 0 hj).1, (sectorQk_states hψ2).1]
    exact hin3
  have k2 : rank1 = 2 := by rw [hr1]; exact full i'
  subst k1 k2
  obtain ⟨R, r1, r2, -⟩ := run (by decide)
  obtain ⟨R', r1', r2', -⟩ := run1 (by decide)
  obtain ⟨p0, p1⟩ := sectorQk_states fun m => by rw [← h01]; exact (hψ1 m).1
  refine ⟨sectorQk_ready 1, rfl, S', H', R, R', e1, hfull, r1, r1', ?_, ?_⟩
  · obtain ⟨c, c1, c2⟩ := r2.ritz _ (List.mem_of_getElem? r2.ground)
    have hs : spanState 1 ψ c = c 0 • Pi.single 3 1 := by
      unfold spanState
      rw [Finset.sum_range_one, h0, show sectorQk.nqb = 2 from rfl, sectorQk_ref]
    have c1 : inner 2 (spanState 1 ψ c) (spanState 1 ψ c) = 1 := c1
    have c2 : inner 2 (spanState 1 ψ c) (sectorQk.ham.op (spanState 1 ψ c)) = R.egs := c2
    rw [hs, LinearMap.map_smul, sectorQk_H3, smul_comm, inner_smulR, ← hs, c1] at c2
    exact_mod_cast (by rw [← c2]; norm_num : (R.egs : ℂ) = 2)
  · have := r2'.below rfl (i := 1) (by decide) (hψ1 1).2
    rw [p1] at this
    refine this.trans (le_of_eq ?_)
    exact energy_single (by decide) (by rw [show ({ sectorQk with nstates := 2 } : QkAlg).ham.op = sectorQk.ham.op from rfl, sectorQk_H0]; norm_num)

end QF
