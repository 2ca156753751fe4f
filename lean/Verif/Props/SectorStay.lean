import Verif.Props.SectorEx
import Verif.Spec.Charge

/-!
C117: NTSRQK stays in the symmetry sector of its reference; SRQK need not.
-/
namespace QF

/-- amplitudes are Gaussian integers -/
def Gauss (φ : St) : Prop := ∀ I, ∃ a b : ℤ, φ I = a + b * Complex.I

theorem Gauss.single (J : ℕ) : Gauss (Pi.single J 1) := by
  intro I
  by_cases h : I = J
  · subst h; exact ⟨1, 0, by simp⟩
  · exact ⟨0, 0, by rw [Pi.single_eq_of_ne h]; simp⟩

theorem Gauss.pauli {φ : St} (h : Gauss φ) {g : Gate} (hg : PauliGate g) : Gauss (g.op φ) := by
  rcases hg.cases with e | e | e <;> rw [e]
  · intro I; rw [op_gX, opX_apply]; exact h _
  · intro I
    rw [op_gY, opY_apply]
    obtain ⟨a, b, e⟩ := h (flipBit I g.target)
    rw [e]
    split_ifs
    · exact ⟨-b, a, by push_cast; linear_combination (b : ℂ) * Complex.I_mul_I⟩
    · exact ⟨b, -a, by push_cast; linear_combination -(b : ℂ) * Complex.I_mul_I⟩
  · intro I
    rw [op_gZ, opZ_apply]
    obtain ⟨a, b, e⟩ := h I
    rw [e]
    split_ifs
    · exact ⟨-a, -b, by push_cast; ring⟩
    · exact ⟨a, b, by ring⟩

theorem Gauss.circuit : ∀ {c : Circuit}, PauliCircuit c → ∀ {φ : St}, Gauss φ → Gauss (c.op φ)
  | [], _, φ, h => by simpa using h
  | g :: c, hc, φ, h => by
    rw [Circuit.op_cons, Module.End.mul_apply]
    exact Gauss.circuit (fun g' hg' => hc g' (by simp [hg'])) (h.pauli (hc g (by simp)))

/-- a multiple of a number above the threshold is never dropped -/
theorem chop_grid {δ : ℝ} (hδ : 1e-16 < δ) {z : ℂ} (h : ∃ a b : ℤ, z = δ * (a + b * Complex.I)) : chop z = z := by
  obtain ⟨a, b, rfl⟩ := h
  unfold chop
  by_cases h0 : a = 0 ∧ b = 0
  · rw [h0.1, h0.2]; simp
  · rw [if_pos]
    have h1 : (1 : ℝ) ≤ ‖(a + b * Complex.I : ℂ)‖ := by
      by_cases ha : a = 0
      · have hb : b ≠ 0 := fun hb => h0 ⟨ha, hb⟩
        refine le_trans ?_ (Complex.abs_im_le_norm _)
        simp only [Complex.add_im, Complex.intCast_im, Complex.mul_im, Complex.intCast_re, Complex.I_im, mul_one, Complex.I_re, mul_zero, add_zero, zero_add]
        exact_mod_cast Int.one_le_abs hb
      · refine le_trans ?_ (Complex.abs_re_le_norm _)
        simp only [Complex.add_re, Complex.intCast_re, Complex.mul_re, Complex.I_re, mul_zero, Complex.intCast_im, zero_mul, sub_zero, add_zero]
        exact_mod_cast Int.one_le_abs ha
    rw [norm_mul, Complex.norm_real, Real.norm_of_nonneg (by linarith)]
    nlinarith

/-- the sparse matrix is exact when the coefficients are integer multiples of a number above the threshold -/
theorem pauliOpSparse_grid {n : ℕ} {A : QubitOperator} (hne : A ≠ []) (hf : ∀ t ∈ A, t.2.Fits n) (hp : ∀ t ∈ A, PauliCircuit t.2) {δ : ℝ} (hδ : 1e-16 < δ)
    (hg : ∀ t ∈ A, ∃ k : ℤ, t.1 = (k : ℂ) * δ) {S : SMat} (hS : A.sparseMatrix n = .ok S) : ∀ I J, I < 2 ^ n → J < 2 ^ n → S.get I J = A.op (Pi.single J 1) I := by
  have loop : ∀ (A : QubitOperator) (R : SMat) (B : Op), R.OK (2 ^ n) → (∀ I J, chop (R.get I J) = R.get I J) →
      (∀ t ∈ A, t.2.Fits n) → (∀ t ∈ A, PauliCircuit t.2) → (∀ t ∈ A, ∃ k : ℤ, t.1 = (k : ℂ) * δ) →
      (∀ I J, I < 2 ^ n → J < 2 ^ n → R.get I J = B (Pi.single J 1) I ∧ ∃ a b : ℤ, R.get I J = δ * (a + b * Complex.I)) →
      ∃ S, A.foldlM (fun R t => (do
        let L ← t.2.sparseMatrix n
        pure (SMat.add R L t.1) : Except Exc SMat)) R = .ok S ∧
        ∀ I J, I < 2 ^ n → J < 2 ^ n → S.get I J = (B + A.op) (Pi.single J 1) I := by
    intro A
    induction A with
    | nil => intro R B hR _ _ _ _ h; exact ⟨R, rfl, fun I J hI hJ => by simpa [QubitOperator.op] using (h I J hI hJ).1⟩
    | cons t A ih =>
      intro R B hR hch hf hp hg h
      obtain ⟨L, l1, l2, l3⟩ := pauliSparse_ok t.2 (hf t (by simp)) (hp t (by simp))
      obtain ⟨a1, a2⟩ := add_ok hR l2 t.1 hch
      obtain ⟨S, f1, f3⟩ := ih (R.add L t.1) (B + t.1 • t.2.op) a1
        (fun I J => by rw [a2, chop_chop]) (fun t ht => hf t (by simp [ht])) (fun t ht => hp t (by simp [ht])) (fun t ht => hg t (by simp [ht]))
        (by
          intro I J hI hJ
          obtain ⟨h1, a, b, h2⟩ := h I J hI hJ
          obtain ⟨k, hk⟩ := hg t (by simp)
          obtain ⟨c, d, h3⟩ := Gauss.circuit (hp t (by simp)) (.single J) I
          have key : ∃ a b : ℤ, t.1 * L.get I J + R.get I J = δ * (a + b * Complex.I) :=
            ⟨k * c + a, k * d + b, by rw [l3 I J hI hJ, h3, h2, hk]; push_cast; ring⟩
          rw [a2, chop_grid hδ key]
          refine ⟨?_, key⟩
          rw [l3 I J hI hJ, h1, LinearMap.add_apply, LinearMap.smul_apply, Pi.add_apply, Pi.smul_apply, smul_eq_mul]; ring)
      refine ⟨S, ?_, ?_⟩
      · rw [List.foldlM_cons]; simp only [l1, except_ok_bind, pure, Except.pure] at f1 ⊢; exact f1
      · intro I J hI hJ
        rw [f3 I J hI hJ, op_cons', ← add_assoc]
  have h0 : ∀ I J, SMat.get [] I J = 0 := by intro I J; simp [SMat.get, SMat.row, SVec.get, amGet]
  obtain ⟨S', f1, f3⟩ := loop A [] 0 (.nil _) (by intro I J; rw [h0]; simp [chop]) hf hp hg (by intro I J _ _; rw [h0]; exact ⟨by simp, 0, 0, by simp⟩)
  unfold QubitOperator.sparseMatrix at hS
  rw [if_neg (by simpa using hne), f1] at hS
  cases hS
  intro I J hI hJ
  rw [f3 I J hI hJ, zero_add]

theorem matAct_sector {n : ℕ} {w : ℕ → ℂ} {H : Op} (hH : ∀ φ, H (chargeOp w n φ) = chargeOp w n (H φ)) {M : NMat}
    (hM : ∀ I J, I < 2 ^ n → J < 2 ^ n → M I J = H (Pi.single J 1) I) (φ : St) : matAct (2 ^ n) M (chargeOp w n φ) = chargeOp w n (matAct (2 ^ n) M φ) := by
  have key : ∀ I J, I < 2 ^ n → J < 2 ^ n → M I J * (∑ p ∈ Finset.range n, if J.testBit p then w p else 0) = (∑ p ∈ Finset.range n, if I.testBit p then w p else 0) * M I J := by
    intro I J hI hJ
    have h1 : chargeOp w n (Pi.single J 1) = (∑ p ∈ Finset.range n, if J.testBit p then w p else 0) • (Pi.single J 1 : St) := by
      funext K
      show (∑ p ∈ Finset.range n, if K.testBit p then w p else 0) * (Pi.single J 1 : St) K = _ * (Pi.single J 1 : St) K
      by_cases h : K = J
      · rw [h]
      · rw [Pi.single_eq_of_ne h, mul_zero, mul_zero]
    have h2 := congrFun (hH (Pi.single J 1)) I
    rw [h1, LinearMap.map_smul] at h2
    rw [hM I J hI hJ, mul_comm]
    exact h2
  funext I
  show (if I < 2 ^ n then ∑ J ∈ Finset.range (2 ^ n), M I J * (_ * φ J) else 0) = _ * (if I < 2 ^ n then ∑ J ∈ Finset.range (2 ^ n), M I J * φ J else 0)
  by_cases hI : I < 2 ^ n
  · rw [if_pos hI, if_pos hI, Finset.mul_sum]
    refine Finset.sum_congr rfl fun J hJ => ?_
    rw [← mul_assoc, key I J hI (Finset.mem_range.1 hJ), mul_assoc]
  · rw [if_neg hI, if_neg hI, mul_zero]

/-- the exponential series stays in an eigenspace of a diagonal operator with which its terms commute -/
theorem expOn_sector {n : ℕ} {w : ℕ → ℂ} {B : Op} (hB : ∀ φ, B (chargeOp w n φ) = chargeOp w n (B φ)) {q : ℂ} {Φ ψ : St} (hΦ : chargeOp w n Φ = q • Φ) (h : ExpOn B Φ ψ) :
    chargeOp w n ψ = q • ψ := by
  have hp : ∀ k : ℕ, chargeOp w n ((B ^ k) Φ) = q • (B ^ k) Φ := by
    intro k
    induction k with
    | zero => simpa using hΦ
    | succ k ih => rw [pow_succ', Module.End.mul_apply, ← hB, ih, LinearMap.map_smul]
  funext I
  have h1 := (h I).mul_left (∑ p ∈ Finset.range n, if I.testBit p then w p else 0)
  have h2 := (h I).mul_left q
  refine h1.unique ?_
  convert! h2 using 1
  funext k
  have := congrFun (hp k) I
  have this : (∑ p ∈ Finset.range n, if I.testBit p then w p else 0) * (B ^ k) Φ I = q * (B ^ k) Φ I := this
  rw [mul_left_comm, this]; ring

/-- what the roots of a calculation whose states all lie in an eigenspace of `Q` are -/
def RootsInSector (n : ℕ) (H Q : Op) (q : ℂ) (R : QsdResult) : Prop :=
  (∀ z ∈ R.eigenvalues, ∃ χ, Q χ = q • χ ∧ inner n χ χ = 1 ∧ inner n χ (H χ) = z) ∧
    ∀ E0 : ℝ, (∀ χ, Q χ = q • χ → inner n χ χ = 1 → E0 ≤ energy n H χ) → E0 ≤ R.egs ∧ E0 ≤ R.ets

theorem span_eigen {k : ℕ} {Q : Op} {q : ℂ} {φ : ℕ → St} (h : ∀ m < k, Q (φ m) = q • φ m) (c : ℕ → ℂ) : Q (spanState k φ c) = q • spanState k φ c := by
  unfold spanState
  rw [map_sum, Finset.smul_sum]
  refine Finset.sum_congr rfl fun m hm => ?_
  rw [LinearMap.map_smul, h m (Finset.mem_range.1 hm), smul_comm]

theorem QsdOk.sector {n k : ℕ} {H Q : Op} {q : ℂ} {φ : ℕ → St} (h : ∀ m < k, Q (φ m) = q • φ m) {rank : ℕ} {target : ℤ} {R : QsdResult} (hok : QsdOk n k H φ rank target R) :
    RootsInSector n H Q q R := by
  have ritz : ∀ z ∈ R.eigenvalues, ∃ χ, Q χ = q • χ ∧ inner n χ χ = 1 ∧ inner n χ (H χ) = z := by
    intro z hz
    obtain ⟨c, c1, c2⟩ := hok.ritz z hz
    exact ⟨_, span_eigen h c, c1, c2⟩
  refine ⟨ritz, fun E0 hE0 => ?_⟩
  have low : ∀ x : ℝ, (x : ℂ) ∈ R.eigenvalues → E0 ≤ x := by
    intro x hx
    obtain ⟨χ, a, b, c⟩ := ritz _ hx
    have := hE0 χ a b
    unfold energy at this
    rw [c] at this
    simpa using this
  refine ⟨low _ (List.mem_of_getElem? hok.ground), low _ ?_⟩
  by_cases ht : 0 ≤ target
  · exact List.mem_of_getElem? (hok.target.1 ht)
  · exact List.mem_of_getElem? (hok.target.2 (by omega))

/-- C117: if `H` conserves the charge with weights `w` (the number of electrons, the spin projection), its coefficients are integer multiples of a number above 1e-16 (decimals of
at most 15 places, for instance) and the prepared state has charge `q`, then every state of NTSRQK has charge `q`, and every root, in particular the ground and the target energy,
is the energy of a normalised state of charge `q` and is not below any lower bound for the energies of the normalised states of charge `q`. -/
theorem C117_ntsrqk {eig : EigOracle} (hE : DescEig eig) (expm : ExpmOracle) (hX : ExpmContract expm) (A : QkAlg) (hA : A.Ready) (hp : ∀ g ∈ A.uprep, ApiGate g) (hne : A.ham ≠ [])
    (hq : A.ham.numQubits = A.nqb) (h0 : 2 ≤ A.nstates) {δ : ℝ} (hδ : 1e-16 < δ) (hg : ∀ t ∈ A.ham, ∃ k : ℤ, t.1 = (k : ℂ) * δ) {w : ℕ → ℂ} {q : ℂ}
    (hH : ∀ φ, A.ham.op (chargeOp w A.nqb φ) = chargeOp w A.nqb (A.ham.op φ))
    (hΦ : chargeOp w A.nqb (A.uprep.op (Computer.init A.nqb).psi) = q • A.uprep.op (Computer.init A.nqb).psi) (target : ℤ) :
    ∃ (S H : NMat) (ψ : ℕ → St), A.ntsrqkMats expm = .ok (S, H) ∧
      (∀ i < A.nstates, ∀ j < A.nstates, S i j = inner A.nqb (ψ i) (ψ j) ∧ H i j = inner A.nqb (ψ i) (A.ham.op (ψ j))) ∧
      (∀ m < A.nstates, chargeOp w A.nqb (ψ m) = q • ψ m ∧ inner A.nqb (ψ m) (ψ m) = 1) ∧
      ∀ R, A.ntsrqkRun expm eig true target false = .ok R → RootsInSector A.nqb A.ham.op (chargeOp w A.nqb) q R := by
  obtain ⟨M1, S1, H1, ψ1, hM1, -, e1, hψ1, hG1⟩ := C77_ntsrqk expm hX A hA hne hq h0
  obtain ⟨M, S, H, ψ, rank, hM, e, -, p0, hψ, run, err, -⟩ := C83_ntsrqk hE expm hX A hA hp hne hq h0 target
  rw [e1] at e; cases e
  rw [hM1] at hM; cases hM
  have hex := pauliOpSparse_grid hne (fun t ht => (hA.ham t ht).2.fits) (fun t ht => (hA.ham t ht).2.gates) hδ hg hM1
  have hψe : ∀ m < A.nstates, ψ1 m = ψ m := by
    intro m hm
    have a := hψ1 m hm
    have b := (hψ m hm).1
    rw [p0] at b
    exact funext fun I => (a I).unique (b I)
  have sec : ∀ m < A.nstates, chargeOp w A.nqb (ψ m) = q • ψ m := by
    intro m hm
    refine expOn_sector (fun φ => ?_) (by rw [p0]; exact hΦ) (hψ m hm).1
    rw [LinearMap.smul_apply, LinearMap.smul_apply, matAct_sector hH hex, LinearMap.map_smul]
  refine ⟨S1, H1, ψ, e1, fun i hi j hj => by rw [← hψe i hi, ← hψe j hj]; exact hG1 i hi j hj, fun m hm => ⟨sec m hm, (hψ m hm).2⟩, fun R hR => ?_⟩
  have ht : -(rank : ℤ) ≤ target ∧ target < rank := by
    by_contra ht
    rw [err ht] at hR; cases hR
  obtain ⟨R', r1, -, hok, -⟩ := run ht
  rw [r1] at hR; cases hR
  exact hok.sector sec

theorem isExp_symm {P Q U : Op} (hP : P * P = 1) (hQ : ∀ φ, P (Q φ) = Q (P φ)) {z : ℂ} (hU : IsExp (z • P) U) (φ : St) : U (Q φ) = Q (U φ) := by
  rw [hU.unique (isExp_invol hP z), LinearMap.add_apply, LinearMap.add_apply, LinearMap.smul_apply, LinearMap.smul_apply, LinearMap.smul_apply, LinearMap.smul_apply, hQ,
    Module.End.one_apply, Module.End.one_apply, Q.map_add, Q.map_smul, Q.map_smul]

/-- a Trotter product stays in the eigenspaces of what commutes with every term -/
theorem TrotterState.symm {n : ℕ} {H : QubitOperator} (hH : ∀ t ∈ H, t.1.im = 0 ∧ t.2.PauliString n) {Q : Op} (hQ : ∀ t ∈ H, ∀ φ, t.2.op (Q φ) = Q (t.2.op φ)) {q : ℂ} {N : ℤ} {τ : ℝ}
    {Φ ψ : St} (hΦ : Q Φ = q • Φ) (h : TrotterState H N τ Φ ψ) : Q ψ = q • ψ := by
  obtain ⟨Us, h1, rfl⟩ := h
  have hU : ∀ φ, applyInOrder Us (Q φ) = Q (applyInOrder Us φ) := by
    clear hΦ
    induction h1 with
    | nil => intro φ; rfl
    | @cons t U H Us u _ ih =>
      intro φ
      have hP : t.2.op * t.2.op = 1 := by
        have hc := (hH t (by simp)).2
        exact ipauli_sq ⟨fun g hg => ⟨.inr (hc.gates g hg).letter, (hc.gates g hg).make⟩, hc.distinct⟩
      show applyInOrder Us (U (Q φ)) = Q (applyInOrder Us (U φ))
      rw [isExp_symm hP (hQ t (by simp)) u, ih (fun t ht => hH t (by simp [ht])) (fun t ht => hQ t (by simp [ht]))]
  have hpow : ∀ k : ℕ, Q ((applyInOrder Us ^ k) Φ) = q • (applyInOrder Us ^ k) Φ := by
    intro k
    induction k with
    | zero => simpa using hΦ
    | succ k ih => rw [pow_succ', Module.End.mul_apply, ← hU, ih, LinearMap.map_smul]
  exact hpow _

/-- C117 for SRQK: a symmetry `Q` that every Pauli string of `H` has (a parity, a spatial symmetry), with the prepared state in its eigenspace -/
theorem C117_srqk {eig : EigOracle} (hE : DescEig eig) (A : QkAlg) (hA : A.Ready) (hp : ∀ g ∈ A.uprep, ApiGate g) (h0 : 1 ≤ A.nstates) {Q : Op} {q : ℂ}
    (hQ : ∀ t ∈ A.ham, ∀ φ, t.2.op (Q φ) = Q (t.2.op φ)) (hΦ : Q (A.uprep.op (Computer.init A.nqb).psi) = q • A.uprep.op (Computer.init A.nqb).psi) {target : ℤ} {R : QsdResult}
    (hR : A.srqkRun eig target = .ok R) : RootsInSector A.nqb A.ham.op Q q R := by
  obtain ⟨S, H, ψ, rank, e, hr, p0, hψ, run, err⟩ := C83_srqk hE A hA hp h0 target
  have ht : -(rank : ℤ) ≤ target ∧ target < rank := by
    by_contra ht
    rw [err ht] at hR; cases hR
  obtain ⟨R', r1, hok, -⟩ := run ht
  rw [r1] at hR; cases hR
  exact hok.sector fun m _ => (hψ m).1.symm hA.ham hQ (by rw [p0]; exact hΦ)

/-- C117 for MRSQK: the same, with all the references in the eigenspace -/
theorem C117_mrsqk {eig : EigOracle} (hE : DescEig eig) (A : QkAlg) (hA : A.Ready) (refs : List (List ℕ)) (hR : ∀ r ∈ refs, Occ r ∧ r.length = A.nqb ∧ 1 ∈ r)
    (hne : refs ≠ []) (h0 : 1 ≤ A.nstates) {Q : Op} {q : ℂ} (hQ : ∀ t ∈ A.ham, ∀ φ, t.2.op (Q φ) = Q (t.2.op φ))
    (hΦ : ∀ r ∈ refs, Q (Pi.single (refIndex r) 1) = q • Pi.single (refIndex r) 1) {target : ℤ} {R : QsdResult} (h : A.mrsqkRun eig refs target = .ok R) :
    RootsInSector A.nqb A.ham.op Q q R := by
  obtain ⟨S, H, ψ, φ, rank, e, hr, hψ, at1, run, err⟩ := C83_mrsqk hE A hA refs hR hne h0 target
  have ht : -(rank : ℤ) ≤ target ∧ target < rank := by
    by_contra ht
    rw [err ht] at h; cases h
  obtain ⟨R', r1, hok, -⟩ := run ht
  rw [r1] at h; cases h
  refine hok.sector fun p hp => ?_
  have h1 : p / A.nstates < refs.length := Nat.div_lt_of_lt_mul (by rwa [mul_comm])
  have h2 := at1 _ _ (List.getElem?_eq_getElem h1) (p % A.nstates) (Nat.mod_lt _ (by omega))
  rw [Nat.div_add_mod' p] at h2
  rw [h2]
  have hm := List.getElem_mem h1
  exact ((hψ _ hm).2 _).symm hA.ham hQ (by rw [(hψ _ hm).1]; exact hΦ _ hm)

theorem numOp2 (φ : St) (I : ℕ) : NumOp 2 φ I = ((if I.testBit 0 then 1 else 0) + (if I.testBit 1 then 1 else 0)) * φ I := by
  show (∑ p ∈ Finset.range (1 + 1), _) * φ I = _
  rw [Finset.sum_range_succ, Finset.sum_range_one]

theorem flip2 (I : ℕ) : (flipBit I 1).testBit 0 = I.testBit 0 ∧ (flipBit (flipBit I 1) 0).testBit 0 = !I.testBit 0 ∧ (flipBit (flipBit I 1) 0).testBit 1 = !I.testBit 1 := by
  refine ⟨?_, ?_, ?_⟩
  all_goals rw [testBit_flipBit]
  · rfl
  · rw [if_pos rfl, testBit_flipBit]; rfl
  · rw [if_neg (by decide), testBit_flipBit, if_pos rfl]

theorem sectorQk_H (φ : St) (I : ℕ) : sectorQk.ham.op φ I =
    (if I.testBit 0 = I.testBit 1 then 0 else 2 * φ (flipBit (flipBit I 1) 0)) + (-2) * ((if I.testBit 0 then -1 else 1) * φ I) := by
  rw [sectorQk_ham]
  have e : (opX 1 * opX 0 + ((-2 : ℂ) • opZ 0 + opY 1 * opY 0)) φ I = opX 1 (opX 0 φ) I + ((-2) * opZ 0 φ I + opY 1 (opY 0 φ) I) := rfl
  rw [e, opX_apply, opX_apply, opZ_apply, opY_apply, opY_apply, (flip2 I).1]
  cases h0 : I.testBit 0 <;> cases h1 : I.testBit 1 <;> simp [← mul_assoc] <;> ring

/-- `H` conserves the number of electrons -/
theorem sectorQk_conserves (φ : St) : sectorQk.ham.op (NumOp 2 φ) = NumOp 2 (sectorQk.ham.op φ) := by
  funext I
  rw [numOp2, sectorQk_H, sectorQk_H, numOp2, numOp2, (flip2 I).2.1, (flip2 I).2.2]
  cases h0 : I.testBit 0 <;> cases h1 : I.testBit 1 <;> simp <;> ring

/-- the two-electron states of two orbitals -/
theorem two_electrons {χ : St} (h : NumOp 2 χ = (2 : ℂ) • χ) (h1 : inner 2 χ χ = 1) : energy 2 sectorQk.ham.op χ = 2 := by
  have hz : ∀ I, ¬(I.testBit 0 = true ∧ I.testBit 1 = true) → χ I = 0 := by
    intro I hI
    have := congrFun h I
    rw [numOp2, Pi.smul_apply, smul_eq_mul] at this
    cases h0 : I.testBit 0 <;> cases h1 : I.testBit 1 <;> simp [h0, h1] at this hI
    · exact this
    · linear_combination -this
    · linear_combination -this
  have hH : sectorQk.ham.op χ = (2 : ℂ) • χ := by
    funext I
    rw [sectorQk_H, Pi.smul_apply, smul_eq_mul]
    cases h0 : I.testBit 0 <;> cases h1 : I.testBit 1
    · rw [hz I (by simp [h0])]; simp
    · rw [hz I (by simp [h0]), hz (flipBit (flipBit I 1) 0) (by rw [(flip2 I).2.1, (flip2 I).2.2, h0, h1]; decide)]; simp
    · rw [hz I (by simp [h1]), hz (flipBit (flipBit I 1) 0) (by rw [(flip2 I).2.1, (flip2 I).2.2, h0, h1]; decide)]; simp
    · simp
  unfold energy
  rw [hH, inner_smulR, h1]
  simp

/-- C117 (finding): SRQK evolves with a Trotter product, whose factors need not conserve the number of electrons when `H` does. Here `H` conserves it, the reference has two
electrons and every normalised state with two electrons has energy exactly 2; SRQK with two states reports at most -2. -/
theorem C117_trotter_refuted {eig : EigOracle} (hE : DescEig eig) : ∃ A : QkAlg, A.Ready ∧ A.trotterNumber = 1 ∧
    (∀ φ, A.ham.op (NumOp A.nqb φ) = NumOp A.nqb (A.ham.op φ)) ∧
    NumOp A.nqb (A.uprep.op (Computer.init A.nqb).psi) = (2 : ℂ) • A.uprep.op (Computer.init A.nqb).psi ∧
    (∀ χ, NumOp A.nqb χ = (2 : ℂ) • χ → inner A.nqb χ χ = 1 → energy A.nqb A.ham.op χ = 2) ∧
    ∃ R, A.srqkRun eig 0 = .ok R ∧ R.egs ≤ -2 := by
  obtain ⟨-, -, S', H', R, R', -, -, -, r, -, l⟩ := C116_example hE
  refine ⟨{ sectorQk with nstates := 2 }, sectorQk_ready 2, rfl, sectorQk_conserves, ?_, fun χ => two_electrons, R', r, l⟩
  show NumOp 2 (sectorQk.uprep.op (Computer.init 2).psi) = (2 : ℂ) • sectorQk.uprep.op (Computer.init 2).psi
  rw [sectorQk_ref]
  funext I
  rw [numOp2, Pi.smul_apply, smul_eq_mul]
  by_cases h : I = 3
  · subst h
    rw [if_pos (by decide), if_pos (by decide)]; norm_num
  · rw [Pi.single_eq_of_ne h, mul_zero, mul_zero]

/-- C117: NTSRQK on the same instance meets the hypotheses of `C117_ntsrqk` -/
theorem C117_example : ({ sectorQk with nstates := 2 } : QkAlg).Ready ∧ (∀ g ∈ sectorQk.uprep, ApiGate g) ∧ sectorQk.ham ≠ [] ∧ sectorQk.ham.numQubits = 2 ∧
    (∀ t ∈ sectorQk.ham, ∃ k : ℤ, t.1 = (k : ℂ) * ((1 : ℝ) : ℂ)) ∧
    (∀ φ, sectorQk.ham.op (chargeOp (fun _ => 1) 2 φ) = chargeOp (fun _ => 1) 2 (sectorQk.ham.op φ)) ∧
    ∀ t ∈ sectorQk.ham, ∀ φ, t.2.op (Circuit.op [gZ 0, gZ 1] φ) = Circuit.op [gZ 0, gZ 1] (t.2.op φ) := by
  refine ⟨sectorQk_ready 2, ?_, by simp [sectorQk], by decide, ?_, sectorQk_conserves, ?_⟩
  rotate_left 2
  · intro t ht φ
    simp only [sectorQk, List.mem_cons, List.not_mem_nil, or_false] at ht
    funext I
    rcases ht with rfl | rfl | rfl
    all_goals simp only [Circuit.op_cons, Circuit.op_nil, one_mul, op_gX, op_gY, op_gZ, Module.End.mul_apply, opX_apply, opY_apply, opZ_apply]
    all_goals try simp only [(flip2 I).1, (flip2 I).2.1, (flip2 I).2.2]
    all_goals cases h0 : I.testBit 0 <;> cases h1 : I.testBit 1 <;> simp
  · intro g hg
    simp only [sectorQk, List.mem_cons, List.not_mem_nil, or_false] at hg
    rcases hg with rfl | rfl
    · exact .make (pauliGate_X 0).make
    · exact .make (pauliGate_X 1).make
  · intro t ht
    simp only [sectorQk, List.mem_cons, List.not_mem_nil, or_false] at ht
    rcases ht with rfl | rfl | rfl
    · exact ⟨1, by simp⟩
    · exact ⟨-2, by simp⟩
    · exact ⟨1, by simp⟩

end QF
