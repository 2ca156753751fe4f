import Verif.Props.SaGradient
import Mathlib.Analysis.SpecialFunctions.Trigonometric.Bounds
import Verif.Props.UccTrotterGrad

/-!
C71 for the `sa_SD` pool: `measure_gradient` is not the gradient when the pieces of an element do not commute (finding F36).
-/
namespace QF

open SQOperator (DescSort jwTransform)
open QubitOperator (SortOracle)

/-! ### the `sa_SD` pool of two electrons in three orbitals -/

theorem fermi_swap_c (p q : ℕ) (a : List ℕ) : fermiString [p, q] a = -fermiString [q, p] a := by
  simp only [fermiString, List.map_cons, List.map_nil, List.prod_cons, List.prod_nil, mul_one]
  rw [ladder_same_anticomm true p q, Op.negMul]

theorem fermi_swap_a (p q : ℕ) (c : List ℕ) : fermiString c [p, q] = -fermiString c [q, p] := by
  simp only [fermiString, List.map_cons, List.map_nil, List.prod_cons, List.prod_nil, mul_one]
  rw [ladder_same_anticomm false p q, Op.mulNeg]

/-- for two electrons in the same orbital the triplet operator cancels -/
theorem triplet_same (o : DescSort) (ia ib aa ab ba bb : ℕ) : SQOperator.simplify o (SQOpPool.saTriplet ia ib ia ib aa ab ba bb) = .ok [] := by
  refine simplify_target o _ _ ?_ (by simp) (by simp) (by simp) ?_
  · unfold SQOpPool.saTriplet; repeat' apply SQOpPool.guardTerm_distinct
    intro t ht; simp at ht
  · have e : ∀ A B : SQOperator, SQOperator.op (A ++ B) = SQOperator.op A + SQOperator.op B := by
      intro A B; unfold SQOperator.op; rw [List.map_append, List.sum_append]
    have g : ∀ (z : ℂ) (c0 c1 a0 a1 : ℕ), SQOperator.op (gterm z c0 c1 a0 a1) + SQOperator.op (gterm z c0 c1 a1 a0) = 0 := by
      intro z c0 c1 a0 a1
      unfold gterm
      by_cases h : c0 ≠ c1 ∧ a0 ≠ a1
      · rw [if_pos h, if_pos ⟨h.1, h.2.symm⟩]
        simp only [SQOperator.op, List.map_cons, List.map_nil, List.sum_cons, List.sum_nil, add_zero]
        rw [fermi_swap_a a0 a1]
        module
      · rw [if_neg h, if_neg fun h' => h ⟨h'.1, h'.2.symm⟩]; simp [SQOperator.op]
    have g' : ∀ (z : ℂ) (c0 c1 a0 a1 : ℕ), SQOperator.op (gterm z c0 c1 a0 a1) + SQOperator.op (gterm z c1 c0 a0 a1) = 0 := by
      intro z c0 c1 a0 a1
      unfold gterm
      by_cases h : c0 ≠ c1 ∧ a0 ≠ a1
      · rw [if_pos h, if_pos ⟨h.1.symm, h.2⟩]
        simp only [SQOperator.op, List.map_cons, List.map_nil, List.sum_cons, List.sum_nil, add_zero]
        rw [fermi_swap_c c0 c1]
        module
      · rw [if_neg h, if_neg fun h' => h ⟨h'.1.symm, h'.2⟩]; simp [SQOperator.op]
    have d1 : ∀ (z : ℂ) (c0 c1 a : ℕ), gterm z c0 c1 a a = [] := by intro z c0 c1 a; simp [gterm]
    have d2 : ∀ (z : ℂ) (c a0 a1 : ℕ), gterm z c c a0 a1 = [] := by intro z c a0 a1; simp [gterm]
    obtain ⟨W, hW⟩ : ∃ W, W = ((1 / Real.sqrt 12 : ℝ) : ℂ) := ⟨_, rfl⟩
    unfold SQOpPool.saTriplet
    simp only [guardTerm_eq, List.nil_append, ← hW, e, d1, d2]
    have h1 := g W aa bb ia ib
    have h2 := g W ab ba ia ib
    have h3 := g' (-W) ib ia bb aa
    have h4 := g' (-W) ib ia ba ab
    have h0 : SQOperator.op [] = 0 := by simp [SQOperator.op]
    simp only [h0, add_zero]
    have : SQOperator.op (gterm W aa bb ia ib) + SQOperator.op (gterm W aa bb ib ia) + (SQOperator.op (gterm W ab ba ia ib) + SQOperator.op (gterm W ab ba ib ia)) +
      (SQOperator.op (gterm (-W) ib ia bb aa) + SQOperator.op (gterm (-W) ia ib bb aa)) + (SQOperator.op (gterm (-W) ib ia ba ab) + SQOperator.op (gterm (-W) ia ib ba ab)) = 0 := by
      rw [h1, h2, h3, h4]; simp
    refine this.symm.trans ?_
    generalize SQOperator.op (gterm W aa bb ia ib) = x1
    abel

/-- the operator of `sa_SD` that excites both electrons, one to the first and one to the second virtual orbital -/
noncomputable def saMixed : SQOperator := [((1 / Real.sqrt 2 : ℝ), [1, 0], [4, 3]), (-(1 / Real.sqrt 2 : ℝ), [1, 0], [5, 2]),
  (-(1 / Real.sqrt 2 : ℝ), [4, 3], [1, 0]), ((1 / Real.sqrt 2 : ℝ), [5, 2], [1, 0])]

theorem singlet_mixed (o : DescSort) : ∃ R, SQOperator.simplify o (SQOpPool.saSinglet 0 1 0 1 2 3 4 5) = .ok R ∧ SQOpPool.saNormalise R = saMixed := by
  refine ⟨[(1, [1, 0], [4, 3]), (-1, [1, 0], [5, 2]), (-1, [4, 3], [1, 0]), (1, [5, 2], [1, 0])], simplify_target o _ _ ?_ ?_ ?_ ?_ ?_, ?_⟩
  · unfold SQOpPool.saSinglet; repeat' apply SQOpPool.guardTerm_distinct
    intro t ht; simp at ht
  · intro t ht
    simp only [List.mem_cons, List.not_mem_nil, or_false] at ht
    rcases ht with rfl | rfl | rfl | rfl <;> constructor <;> simp
  · simp [SQOperator.klt, SQOperator.vlt]
  · intro t ht
    simp only [List.mem_cons, List.not_mem_nil, or_false] at ht
    rcases ht with rfl | rfl | rfl | rfl <;> norm_num
  · simp only [SQOpPool.saSinglet, SQOpPool.guardTerm]
    norm_num
    simp only [SQOperator.addTerm, SQOperator.op, List.nil_append, List.cons_append, List.map_cons, List.map_nil, List.sum_cons, List.sum_nil]
    rw [fermi_swap_c 2 5, fermi_swap_c 2 5, fermi_swap_c 3 4, fermi_swap_c 3 4, fermi_swap_a 0 1, fermi_swap_a 0 1, fermi_swap_c 0 1, fermi_swap_c 0 1]
    module
  · have : Real.sqrt (2 / (1 + (1 + (1 + 1)))) = 1 / Real.sqrt 2 := by
      rw [show (2 : ℝ) / (1 + (1 + (1 + 1))) = 1 / 2 by norm_num, Real.sqrt_div (by norm_num), Real.sqrt_one]
    simp only [SQOpPool.saNormalise, SQOperator.multCoeffs, saMixed, List.map_cons, List.map_nil, List.sum_cons, List.sum_nil, norm_one, norm_neg, one_pow, add_zero, this]
    simp

theorem singlet_pair (o : DescSort) : ∃ R, SQOperator.simplify o (SQOpPool.saSinglet 0 1 0 1 2 3 2 3) = .ok R ∧ 0 < (SQOpPool.saNormalise R).length := by
  refine ⟨[(-2, [1, 0], [3, 2]), (2, [3, 2], [1, 0])], simplify_target o _ _ ?_ ?_ ?_ ?_ ?_, ?_⟩
  · unfold SQOpPool.saSinglet; repeat' apply SQOpPool.guardTerm_distinct
    intro t ht; simp at ht
  · intro t ht
    simp only [List.mem_cons, List.not_mem_nil, or_false] at ht
    rcases ht with rfl | rfl <;> constructor <;> simp
  · simp [SQOperator.klt, SQOperator.vlt]
  · intro t ht
    simp only [List.mem_cons, List.not_mem_nil, or_false] at ht
    rcases ht with rfl | rfl <;> norm_num
  · simp only [SQOpPool.saSinglet, SQOpPool.guardTerm]
    norm_num
    simp only [SQOperator.addTerm, SQOperator.op, List.nil_append, List.cons_append, List.map_cons, List.map_nil, List.sum_cons, List.sum_nil]
    rw [fermi_swap_c 2 3, fermi_swap_c 2 3, fermi_swap_a 0 1, fermi_swap_a 2 3, fermi_swap_a 2 3, fermi_swap_c 0 1]
    module
  · simp [SQOpPool.saNormalise, SQOperator.multCoeffs]

/-- the pool that `fill_pool("sa_SD")` makes for two electrons in three orbitals: operator 3 is `saMixed` -/
theorem sa_pool (o : DescSort) : ∃ P0 P : SQOpPool, SQOpPool.setOrbSpaces {} [1, 1, 0, 0, 0, 0] = .ok P0 ∧ SQOpPool.fillSaSD o P0 = .ok P ∧
    P.terms[3]? = some (1, saMixed) := by
  refine ⟨{ refInt := 3, nSpinorb := 6, nOccAlpha := 1, nOccBeta := 1, nVirAlpha := 2, nVirBeta := 2, orbIrreps := [0, 0, 0], terms := [] }, ?_⟩
  have hadd : ∀ (P : SQOpPool) (x : ℕ × ℕ), x ∈ [(0, 0), (0, 1)] → P.orbIrreps = [0, 0, 0] → ∃ R, SQOpPool.saSingles o 1 P x = .ok (P.addTerm 1 R) := by
    intro P x hx hi
    simp only [List.mem_cons, List.not_mem_nil, or_false] at hx
    have hf : findIrrep P.orbIrreps [2 * x.1, 2 * 1 + 2 * x.2] = .ok 0 := by
      rw [hi]
      rcases hx with rfl | rfl <;> rfl
    unfold SQOpPool.saSingles
    simp only [hf, except_ok_bind, if_true]
    obtain ⟨R, _, e, _⟩ := C35_simplify o ((((SQOperator.addTerm [] ((1 / Real.sqrt 2 : ℝ) : ℂ) [2 * 1 + 2 * x.2] [2 * x.1]).addTerm ((1 / Real.sqrt 2 : ℝ) : ℂ) [2 * 1 + 2 * x.2 + 1] [2 * x.1 + 1]).addTerm
            (-((1 / Real.sqrt 2 : ℝ) : ℂ)) [2 * x.1] [2 * 1 + 2 * x.2]).addTerm (-((1 / Real.sqrt 2 : ℝ) : ℂ)) [2 * x.1 + 1] [2 * 1 + 2 * x.2 + 1])
    exact ⟨R, by rw [e]; rfl⟩
  have hdbl : ∀ (P : SQOpPool) (a b : ℕ), a < 2 → b < 2 → P.orbIrreps = [0, 0, 0] → ∀ R, SQOperator.simplify o (SQOpPool.saSinglet 0 1 0 1 (2 + 2 * a) (2 + 2 * a + 1) (2 + 2 * b) (2 + 2 * b + 1)) = .ok R →
      SQOpPool.saDoubles o 1 P (0, 0, a, b) = .ok (if (SQOpPool.saNormalise R).length > 0 then P.addTerm 1 (SQOpPool.saNormalise R) else P) := by
    intro P a b ha hb hi R e
    have hf : findIrrep P.orbIrreps [2 * 0, 2 * 0, 2 * 1 + 2 * a, 2 * 1 + 2 * b] = .ok 0 := by
      rw [hi]
      interval_cases a <;> interval_cases b <;> rfl
    unfold SQOpPool.saDoubles
    simp only [hf, except_ok_bind, if_true]
    have ht := triplet_same o (2 * 0) (2 * 0 + 1) (2 * 1 + 2 * a) (2 * 1 + 2 * a + 1) (2 * 1 + 2 * b) (2 * 1 + 2 * b + 1)
    rw [ht, except_ok_bind]
    erw [e]
    rw [except_ok_bind]
    simp [SQOpPool.saNormalise, SQOperator.multCoeffs, pure, Except.pure]
  obtain ⟨R0, e0⟩ := hadd { refInt := 3, nSpinorb := 6, nOccAlpha := 1, nOccBeta := 1, nVirAlpha := 2, nVirBeta := 2, orbIrreps := [0, 0, 0], terms := [] } (0, 0) (by simp) rfl
  obtain ⟨R1, e1⟩ := hadd { refInt := 3, nSpinorb := 6, nOccAlpha := 1, nOccBeta := 1, nVirAlpha := 2, nVirBeta := 2, orbIrreps := [0, 0, 0], terms := [(1, R0)] } (0, 1) (by simp) rfl
  obtain ⟨S0, f0, l0⟩ := singlet_pair o
  obtain ⟨S1, f1, l1⟩ := singlet_mixed o
  obtain ⟨S2, _, f2, _⟩ := C35_simplify o (SQOpPool.saSinglet 0 1 0 1 (2 + 2 * 1) (2 + 2 * 1 + 1) (2 + 2 * 1) (2 + 2 * 1 + 1))
  have g0 := fun P hP => hdbl P 0 0 (by norm_num) (by norm_num) hP S0 f0
  have g1 := fun P hP => hdbl P 0 1 (by norm_num) (by norm_num) hP S1 f1
  have g2 := fun P hP => hdbl P 1 1 (by norm_num) (by norm_num) hP S2 f2
  simp only [if_pos l0] at g0
  rw [l1] at g1
  have l3 : saMixed.length > 0 := by simp [saMixed]
  simp only [if_pos l3] at g1
  have hq : SQOpPool.gsdQuads 1 2 = [(0, 0, 0, 0), (0, 0, 0, 1), (0, 0, 1, 1)] := by decide
  have hs : ((List.range 1).flatMap fun i => (List.range 2).map fun a => (i, a)) = [(0, 0), (0, 1)] := by decide
  let B : SQOpPool := { refInt := 3, nSpinorb := 6, nOccAlpha := 1, nOccBeta := 1, nVirAlpha := 2, nVirBeta := 2, orbIrreps := [0, 0, 0], terms := [(1, R0), (1, R1), (1, SQOpPool.saNormalise S0), (1, saMixed)] }
  refine ⟨if (SQOpPool.saNormalise S2).length > 0 then B.addTerm 1 (SQOpPool.saNormalise S2) else B, by rfl, ?_, ?_⟩
  · unfold SQOpPool.fillSaSD
    rw [if_neg (by decide)]
    simp only [hs, hq, List.foldlM_cons, List.foldlM_nil, e0, except_ok_bind, SQOpPool.addTerm, List.nil_append, e1, List.cons_append, pure, Except.pure]
    rw [g0 _ rfl, except_ok_bind]
    simp only [SQOpPool.addTerm, List.cons_append, List.nil_append]
    rw [g1 _ rfl, except_ok_bind]
    simp only [SQOpPool.addTerm, List.cons_append, List.nil_append]
    rw [g2 _ rfl]
    rfl
  · split <;> rfl

/-- the flow of an excitation in terms of its matrix elements, which are `±1` where it acts -/
theorem exc_flow (q : Bool) {c a : List ℕ} (h : (c ++ a).Nodup) (hne : c ≠ []) {V : ℝ → Op} (hV : IsFlow (kappa q c a) V) : ∃ k : ℕ → ℝ,
    (∀ s ψ I, V s ψ I = (Real.cos (s * k I) : ℂ) * ψ I + (Real.sin (s * k I) : ℂ) * ψ (I ^^^ lmask (caList c a))) ∧
    (∀ ψ I, kappa q c a ψ I = k I * ψ (I ^^^ lmask (caList c a))) ∧ (∀ I, k (I ^^^ lmask (caList c a)) = -k I) ∧
    (∀ I, Reached c a I → k I = 1 ∨ k I = -1) ∧ ∀ I, ¬ Reached c a I → ¬ Reached a c I → k I = 0 := by
  obtain ⟨k, hK, ha⟩ := kappa_skew q c a
  have hv : ∀ I, (k I : ℂ) = kappa q c a (fun _ => 1) I := by intro I; rw [hK, mul_one]
  have hrf : ∀ I, Reached c a (flipAll (c ++ a) I) ↔ Reached a c I := by
    intro I; rw [reached_flip h, Reached]; exact and_comm
  refine ⟨k, fun s ψ I => by rw [(hV s).unique (isExp_skew hK ha s), skewExp_apply], hK, ha, ?_, ?_⟩
  · intro I hI
    have hno : ¬ Reached a c I := by
      intro h2
      obtain ⟨p, hp⟩ := List.exists_mem_of_ne_nil _ hne
      have := hI.1 p hp; rw [h2.2 p hp] at this; cases this
    have h2 : (k I : ℂ) * k I = 1 := by
      rw [hv]
      have := strings_apply h (fun _ => 1) I
      cases q
      · simp only [kappa, Bool.false_eq_true, if_false, LinearMap.sub_apply, Pi.sub_apply]
        rw [this.1, this.2.1, if_pos hI, if_neg (by rwa [hrf])]
        simpa using lsign_sq (caList c a) I
      · simp only [kappa, if_true, LinearMap.sub_apply, Pi.sub_apply]
        rw [this.2.2.1, this.2.2.2, if_pos hI, if_neg (by rwa [hrf])]
        simp
    have h3 : k I * k I = 1 := by exact_mod_cast h2
    exact mul_self_eq_one_iff.1 h3
  · intro I h1 h2
    have h4 : (k I : ℂ) = 0 := by
      rw [hv]
      have := strings_apply h (fun _ => 1) I
      cases q
      · simp only [kappa, Bool.false_eq_true, if_false, LinearMap.sub_apply, Pi.sub_apply]
        rw [this.1, this.2.1, if_neg h1, if_neg (by rwa [hrf]), sub_zero]
      · simp only [kappa, if_true, LinearMap.sub_apply, Pi.sub_apply]
        rw [this.2.2.1, this.2.2.2, if_neg h1, if_neg (by rwa [hrf]), sub_zero]
    exact_mod_cast h4

/-! ### energy and gradient -/

/-- two electrons in three orbitals, ansatz with operator 3 of the pool, Hamiltonian `Z_3` -/
noncomputable def saAlg (pool : List (ℂ × SQOperator)) (q : Bool) (t : ℝ) : UccAlg where
  nqb := 6
  uprep := [gX 0, gX 1]
  ham := [(1, [gZ 3])]
  pool := pool
  saSD := true
  tops := [3]
  tamps := [t]
  qubitExc := q

/-- the pieces of the operator -/
noncomputable def saYs : List (ℝ × List ℕ × List ℕ) := [(1 / Real.sqrt 2, [1, 0], [4, 3]), (-(1 / Real.sqrt 2), [1, 0], [5, 2])]

theorem sqrt2_inv : 1 / 2 < 1 / Real.sqrt 2 := by
  have : Real.sqrt 2 < 2 := by rw [Real.sqrt_lt' (by norm_num)]; norm_num
  exact one_div_lt_one_div_of_lt (by positivity) this

theorem saMixed_good : SaGood 6 saYs saMixed := by
  have h2 := sqrt2_inv
  have h0 : (0 : ℝ) < 1 / Real.sqrt 2 := by linarith
  have e1 : Excit 6 [1, 0] [4, 3] := by constructor <;> simp
  have e2 : Excit 6 [1, 0] [5, 2] := by constructor <;> simp
  refine ⟨⟨⟨[(-((1 / Real.sqrt 2 : ℝ) : ℂ), [4, 3], [1, 0]), (((1 / Real.sqrt 2 : ℝ) : ℂ), [5, 2], [1, 0])], ?_, ?_⟩, ?_⟩, ?_, ?_, 1 / Real.sqrt 2, 2, ?_, ?_⟩
  · simp [saMixed, saYs]
  · simp [saYs]
  · intro y hy
    simp only [saYs, List.mem_cons, List.not_mem_nil, or_false] at hy
    rcases hy with rfl | rfl
    · refine ⟨e1, by simp, ?_⟩
      rw [abs_of_pos h0]; norm_num at h2 ⊢; linarith
    · refine ⟨e2, by simp, ?_⟩
      rw [abs_neg, abs_of_pos h0]; norm_num at h2 ⊢; linarith
  · simp [saMixed, SQOperator.klt, SQOperator.vlt]
  · intro y hy
    simp only [saYs, List.mem_cons, List.not_mem_nil, or_false] at hy
    rcases hy with rfl | rfl <;> simp
  · rw [abs_of_pos h0]; norm_num at h2 ⊢; linarith
  · intro y hy
    simp only [saYs, List.mem_cons, List.not_mem_nil, or_false] at hy
    rcases hy with rfl | rfl
    · exact ⟨by simp, 1, by simp⟩
    · exact ⟨by simp, -1, by simp⟩

theorem saAlg_selects {pool : List (ℂ × SQOperator)} (h : pool[3]? = some (1, saMixed)) (q : Bool) (t : ℝ) : (saAlg pool q t).SelectsGood [saYs] :=
  .cons ⟨1, saMixed, h, saMixed_good⟩ .nil

theorem saAlg_ham (pool : List (ℂ × SQOperator)) (q : Bool) (t : ℝ) : ∀ x ∈ (saAlg pool q t).ham, x.1.im = 0 ∧ x.2.PauliString 6 := by
  intro t ht
  simp only [saAlg, List.mem_cons, List.not_mem_nil, or_false] at ht
  subst ht
  refine ⟨by norm_num, ⟨?_, ?_, ?_⟩⟩
  · intro g hg
    simp only [List.mem_cons, List.not_mem_nil, or_false] at hg
    subst hg; exact pauliGate_Z _
  · simp [gZ]
  · intro g hg
    simp only [List.mem_cons, List.not_mem_nil, or_false] at hg
    subst hg; simp [gZ]

theorem saAlg_ready (pool : List (ℂ × SQOperator)) (q : Bool) (t : ℝ) : (saAlg pool q t).Ready := by
  refine ⟨Computer.WF.init 6, rfl, ⟨?_, ?_⟩, ?_⟩
  · intro g hg
    simp only [saAlg, List.mem_cons, List.not_mem_nil, or_false] at hg
    rcases hg with rfl | rfl <;> simp [gX, saAlg]
  · intro g hg
    simp only [saAlg, List.mem_cons, List.not_mem_nil, or_false] at hg
    rcases hg with rfl | rfl <;> exact (pauliGate_X _).exact
  · intro x hx
    have := (saAlg_ham pool q t x hx).2
    exact ⟨this.fits, fun g hg => (this.gates g hg).exact⟩

theorem saAlg_hamop (pool : List (ℂ × SQOperator)) (q : Bool) (t : ℝ) (ψ : St) (I : ℕ) : (saAlg pool q t).ham.op ψ I = if I.testBit 3 then -ψ I else ψ I := by
  have e : (saAlg pool q t).ham.op = opZ 3 := by
    show QubitOperator.op [(1, [gZ 3])] = _
    simp [QubitOperator.op, Circuit.op]
  rw [e, opZ_apply]
  by_cases h : I.testBit 3 <;> simp [h]

theorem saAlg_reference (pool : List (ℂ × SQOperator)) (q : Bool) (t : ℝ) : (saAlg pool q t).reference = Pi.single 3 1 := by
  have e : (saAlg pool q t).reference = opX 1 (opX 0 (Computer.init 6).psi) := by
    show Circuit.op [gX 0, gX 1] (Computer.init 6).psi = _
    simp [Circuit.op]
  rw [e]
  funext I
  rw [opX_apply, opX_apply, init_psi, Pi.single_apply]
  have : flipBit (flipBit I 1) 0 = 0 ↔ I = 3 := by
    constructor
    · intro h
      have h1 := flipBit_flipBit (flipBit I 1) 0
      have h2 := flipBit_flipBit I 1
      rw [h] at h1; rw [← h1] at h2; rw [← h2]; decide
    · rintro rfl; decide
  simp [this]

/-- what the ansatz makes of the reference, and the two pieces acting on that state -/
theorem sa_state (q : Bool) {V : ℝ → Op} (hV : SaFlow q saYs V) (t : ℝ) : ∃ s1 s2 : ℝ, s1 * s1 = 1 ∧ s2 * s2 = 1 ∧
    (∀ I, V t (Pi.single 3 1) I = if I = 3 then (Real.cos (t / Real.sqrt 2) : ℂ) ^ 2 else if I = 24 then -(s1 : ℂ) * Real.sin (t / Real.sqrt 2)
      else if I = 36 then (s2 : ℂ) * Real.sin (t / Real.sqrt 2) * Real.cos (t / Real.sqrt 2) else 0) ∧
    (∀ I, saGen q saYs (V t (Pi.single 3 1)) I = if I = 3 then -((1 / Real.sqrt 2 : ℝ) : ℂ) * Real.sin (t / Real.sqrt 2) * (1 + Real.cos (t / Real.sqrt 2))
      else if I = 24 then -(s1 : ℂ) * (1 / Real.sqrt 2 : ℝ) * Real.cos (t / Real.sqrt 2) ^ 2
      else if I = 36 then (s2 : ℂ) * (1 / Real.sqrt 2 : ℝ) * Real.cos (t / Real.sqrt 2) ^ 2 else 0) := by
  obtain ⟨Ws, hW, hV⟩ := hV
  obtain ⟨W1, W2, h1, h2, rfl⟩ : ∃ W1 W2, IsFlow (kappa q [1, 0] [4, 3]) W1 ∧ IsFlow (kappa q [1, 0] [5, 2]) W2 ∧ Ws = [W1, W2] := by
    cases hW with
    | cons a b => cases b with
      | cons c d => cases d; exact ⟨_, _, a, c, rfl⟩
  obtain ⟨k1, a1, b1, c1, d1, z1⟩ := exc_flow q (by simp) (by simp) h1
  obtain ⟨k2, a2, b2, c2, d2, z2⟩ := exc_flow q (by simp) (by simp) h2
  have m1 : lmask (caList [1, 0] [4, 3]) = 27 := by decide
  have m2 : lmask (caList [1, 0] [5, 2]) = 39 := by decide
  rw [m1] at a1 b1 c1
  rw [m2] at a2 b2 c2
  have k1_3 := d1 3 (by decide)
  have k2_3 := d2 3 (by decide)
  have k1_24 : k1 24 = -k1 3 := c1 3
  have k2_36 : k2 36 = -k2 3 := c2 3
  have k1_36 : k1 36 = 0 := z1 36 (by decide) (by decide)
  have k1_63 : k1 63 = 0 := z1 63 (by decide) (by decide)
  have k2_24 : k2 24 = 0 := z2 24 (by decide) (by decide)
  have k2_63 : k2 63 = 0 := z2 63 (by decide) (by decide)
  have x1 : ∀ I J : ℕ, I ^^^ 27 = J ↔ I = J ^^^ 27 := fun I J => ⟨fun h => by rw [← h, xor_xor_self], fun h => by rw [h, xor_xor_self]⟩
  have x2 : ∀ I J : ℕ, I ^^^ 39 = J ↔ I = J ^^^ 39 := fun I J => ⟨fun h => by rw [← h, xor_xor_self], fun h => by rw [h, xor_xor_self]⟩
  set a := t / Real.sqrt 2 with ha
  have e : ∀ ψ : St, V t ψ = W2 (-a) (W1 a ψ) := by
    intro ψ
    rw [hV]
    simp only [saYs, List.zipWith_cons_cons, List.zipWith_nil_right, applyInOrder, one_mul]
    rw [show t * (1 / Real.sqrt 2) = a by rw [ha]; ring, show t * -(1 / Real.sqrt 2) = -a by rw [ha]; ring]
    rfl
  have hc1 : Real.cos (a * k1 3) = Real.cos a := by rcases k1_3 with h | h <;> simp [h]
  have hc2 : Real.cos (-a * k2 3) = Real.cos a := by rcases k2_3 with h | h <;> simp [h]
  have hs1 : Real.sin (a * -k1 3) = -k1 3 * Real.sin a := by rcases k1_3 with h | h <;> simp [h]
  have hs2 : Real.sin (-a * -k2 3) = k2 3 * Real.sin a := by rcases k2_3 with h | h <;> simp [h]
  have p1 : ∀ I, W1 a (Pi.single 3 1) I = if I = 3 then (Real.cos a : ℂ) else if I = 24 then -(k1 3 : ℂ) * Real.sin a else 0 := by
    intro I
    rw [a1, Pi.single_apply, Pi.single_apply]
    by_cases i1 : I = 3
    · subst i1; simp [hc1]
    · by_cases i2 : I = 24
      · subst i2
        simp only [i1, if_false, mul_zero, zero_add, k1_24, hs1, Nat.reduceXor]
        norm_num
      · have : ¬ I ^^^ 27 = 3 := by rw [x1]; exact i2
        simp [i1, i2, this]
  have p2 : ∀ I, V t (Pi.single 3 1) I = if I = 3 then (Real.cos a : ℂ) ^ 2 else if I = 24 then -(k1 3 : ℂ) * Real.sin a
      else if I = 36 then (k2 3 : ℂ) * Real.sin a * Real.cos a else 0 := by
    intro I
    rw [e, a2, p1, p1]
    by_cases i1 : I = 3
    · subst i1; simp only [hc2, Nat.reduceXor]; norm_num; ring
    · by_cases i2 : I = 24
      · subst i2; simp only [k2_24, Nat.reduceXor]; norm_num
      · by_cases i3 : I = 36
        · subst i3
          simp only [k2_36, hs2, Nat.reduceXor]
          norm_num
        · by_cases i4 : I = 63
          · subst i4; simp only [k2_63, Nat.reduceXor]; norm_num
          · have h1 : ¬ I ^^^ 39 = 3 := by rw [x2]; exact i3
            have h2 : ¬ I ^^^ 39 = 24 := by rw [x2]; exact i4
            simp [i1, i2, i3, h1, h2]
  refine ⟨k1 3, k2 3, by rcases k1_3 with h | h <;> simp [h], by rcases k2_3 with h | h <;> simp [h], p2, ?_⟩
  intro I
  have hg : saGen q saYs = ((1 / Real.sqrt 2 : ℝ) : ℂ) • kappa q [1, 0] [4, 3] - ((1 / Real.sqrt 2 : ℝ) : ℂ) • kappa q [1, 0] [5, 2] := by
    simp only [saGen, saYs, List.map_cons, List.map_nil, List.sum_cons, List.sum_nil, add_zero]
    push_cast
    module
  have q1 : (k1 3 : ℂ) * k1 3 = 1 := by exact_mod_cast (by rcases k1_3 with h | h <;> simp [h] : k1 3 * k1 3 = 1)
  have q2 : (k2 3 : ℂ) * k2 3 = 1 := by exact_mod_cast (by rcases k2_3 with h | h <;> simp [h] : k2 3 * k2 3 = 1)
  rw [hg, LinearMap.sub_apply, Pi.sub_apply, LinearMap.smul_apply, LinearMap.smul_apply, Pi.smul_apply, Pi.smul_apply, b1, b2, p2, p2, smul_eq_mul, smul_eq_mul]
  generalize ((1 / Real.sqrt 2 : ℝ) : ℂ) = w
  by_cases i1 : I = 3
  · subst i1
    simp only [Nat.reduceXor]
    norm_num
    linear_combination (-w * Complex.sin a) * q1 - w * Complex.sin a * Complex.cos a * q2
  · by_cases i2 : I = 24
    · subst i2
      simp only [k1_24, k2_24, Nat.reduceXor]
      norm_num
      ring
    · by_cases i3 : I = 36
      · subst i3
        simp only [k1_36, k2_36, Nat.reduceXor]
        norm_num
        ring
      · by_cases i4 : I = 63
        · subst i4; simp [k1_63, k2_63]
        · have h1 : ¬ I ^^^ 27 = 3 := by rw [x1]; exact i2
          have h2 : ¬ I ^^^ 27 = 24 := by rw [x1]; exact i1
          have h3 : ¬ I ^^^ 27 = 36 := by rw [x1]; exact i4
          have h4 : ¬ I ^^^ 39 = 3 := by rw [x2]; exact i3
          have h5 : ¬ I ^^^ 39 = 24 := by rw [x2]; exact i4
          have h6 : ¬ I ^^^ 39 = 36 := by rw [x2]; exact i1
          simp [i1, i2, i3, h1, h2, h3, h4, h5, h6]

theorem sum_three (f : ℕ → ℂ) (h : ∀ I, I ≠ 3 → I ≠ 24 → I ≠ 36 → f I = 0) : ∑ I ∈ Finset.range (2 ^ 6), f I = f 3 + f 24 + f 36 := by
  have : ∑ I ∈ ({3, 24, 36} : Finset ℕ), f I = ∑ I ∈ Finset.range (2 ^ 6), f I := by
    refine Finset.sum_subset (by decide) ?_
    intro I _ hI
    simp only [Finset.mem_insert, Finset.mem_singleton, not_or] at hI
    exact h I hI.1 hI.2.1 hI.2.2
  rw [← this]
  simp [add_assoc]

theorem saAlg_resolved (t : ℝ) (ht : 1 ≤ |t|) : ∀ p ∈ saFactors [t] [saYs], AmpResolved p.2 p.1 := by
  have h2 := sqrt2_inv
  intro p hp
  simp only [saFactors, saYs, List.zip_cons_cons, List.zip_nil_right, List.flatMap_cons, List.flatMap_nil, List.append_nil, List.map_cons, List.map_nil, List.mem_cons,
    List.not_mem_nil, or_false] at hp
  rcases hp with rfl | rfl
  · refine .inr ?_
    have : (([1, 0] ++ [4, 3] : List ℕ).toFinset.card) = 4 := by decide
    rw [this, abs_mul, abs_of_pos (by linarith : (0 : ℝ) < 1 / Real.sqrt 2)]
    have := mul_le_mul ht h2.le (by norm_num) (abs_nonneg t)
    linarith
  · refine .inr ?_
    have : (([1, 0] ++ [5, 2] : List ℕ).toFinset.card) = 4 := by decide
    rw [this, abs_mul, abs_neg, abs_of_pos (by linarith : (0 : ℝ) < 1 / Real.sqrt 2)]
    have := mul_le_mul ht h2.le (by norm_num) (abs_nonneg t)
    linarith

/-- the energy of the example -/
theorem saAlg_energy (o : DescSort) (so : SortOracle) {pool : List (ℂ × SQOperator)} (h : pool[3]? = some (1, saMixed)) (q : Bool) (u t : ℝ) (ht : 1 ≤ |t|) :
    (saAlg pool q u).energyFeval o so none [t] = .ok (1 - 2 * Real.sin (t / Real.sqrt 2) ^ 2) := by
  obtain ⟨Vs, hV⟩ := saFlows_exist q [saYs]
  have hV' := hV
  obtain ⟨V, hVV, rfl⟩ : ∃ V, SaFlow q saYs V ∧ Vs = [V] := by
    cases hV with
    | cons a b => cases b; exact ⟨_, a, rfl⟩
  rw [C70_sa_energy o so (saAlg pool q u) [saYs] (saAlg_selects h q u).sa rfl rfl rfl [t] (saAlg_resolved t ht) [V] hV' (saAlg_ready pool q u)]
  congr 1
  obtain ⟨s1, s2, r1, r2, hψ, _⟩ := sa_state q hVV t
  have e : uccOp [V] [t] (saAlg pool q u).reference = V t (Pi.single 3 1) := by rw [uccOp_cons, uccOp_nil, one_mul, saAlg_reference]
  unfold uccEnergy energy
  rw [e]
  have hcs := Real.sin_sq_add_cos_sq (t / Real.sqrt 2)
  unfold inner
  rw [show (saAlg pool q u).nqb = 6 from rfl, sum_three]
  · simp only [saAlg_hamop, hψ]
    generalize Real.sin (t / Real.sqrt 2) = a at hcs ⊢
    generalize Real.cos (t / Real.sqrt 2) = b at hcs ⊢
    norm_num [Nat.testBit, Nat.shiftRight_eq_div_pow]
    norm_cast
    have : b ^ 2 = 1 - a ^ 2 := by linarith
    have e1 : s1 * a * (s1 * a) = a ^ 2 := by linear_combination a ^ 2 * r1
    have e2 : s2 * a * b * (s2 * a * b) = a ^ 2 * b ^ 2 := by linear_combination a ^ 2 * b ^ 2 * r2
    nlinarith
  · intro I i1 i2 i3
    simp only [saAlg_hamop, hψ, i1, i2, i3, if_false]
    simp

/-- what `measure_gradient` returns on the example -/
theorem saAlg_gradient (o : DescSort) (so : SortOracle) {pool : List (ℂ × SQOperator)} (h : pool[3]? = some (1, saMixed)) (q : Bool) (u t : ℝ) (ht : 1 ≤ |t|) :
    (saAlg pool q u).measureGradient o so (some [t]) = .ok [-(4 / Real.sqrt 2) * Real.sin (t / Real.sqrt 2) * Real.cos (t / Real.sqrt 2) ^ 2] := by
  obtain ⟨Vs, hV⟩ := saFlows_exist q [saYs]
  have hV' := hV
  obtain ⟨V, hVV, rfl⟩ : ∃ V, SaFlow q saYs V ∧ Vs = [V] := by
    cases hV with
    | cons a b => cases b; exact ⟨_, a, rfl⟩
  have hR := saAlg_ready pool q u
  obtain ⟨U, psi, e1, e2, w, n, p⟩ := sa_build o so (saAlg pool q u) [saYs] (saAlg_selects h q u).sa rfl rfl rfl [t] (saAlg_resolved t ht) [V] hV' hR
  obtain ⟨sig, e3, w3, n3, p3⟩ := C24_apply_operator psi (saAlg pool q u).ham w (by rw [n]; exact hR.ham)
  obtain ⟨Q, j1, hQ⟩ := sa_jw o saMixed_good q
  have hz : (saAlg pool q u).UnitCoeffs := by
    intro i hi e he
    have hi : i = 3 := by simpa [saAlg] using hi
    subst hi
    have : (saAlg pool q u).pool[3]? = some (1, saMixed) := h
    rw [this] at he
    cases he; rfl
  have hK : (saAlg pool q u).gradK o 0 = .ok Q := sa_gradK o hz (i := 3) rfl h j1
  obtain ⟨temp, t1, w1, n1, p1⟩ := C24_apply_operator psi Q w (by rw [n]; exact hQ.exact)
  have t2 : UccAlg.gradVal sig temp = .ok (2 * (inner 6 sig.psi temp.psi).re) := by
    unfold UccAlg.gradVal Computer.dot
    rw [innerProd_inner w3 w1 (by rw [n1, n3]), except_ok_bind, n3, n]; rfl
  have hM : (saAlg pool q u).tamps.length = 0 + 1 := rfl
  unfold UccAlg.measureGradient
  rw [e1, except_ok_bind, e2, except_ok_bind, e3, except_ok_bind, hM]
  simp only
  rw [hK, except_ok_bind, t1, except_ok_bind, t2, except_ok_bind, UccAlg.gradLoop]
  congr 2
  obtain ⟨s1, s2, r1, r2, hψ, hg⟩ := sa_state q hVV t
  have e : psi.psi = V t (Pi.single 3 1) := by rw [p, uccOp_cons, uccOp_nil, one_mul, saAlg_reference]
  rw [p3, p1, hQ.op, e]
  unfold inner
  rw [sum_three]
  · simp only [saAlg_hamop, hψ, hg]
    rw [show -(4 / Real.sqrt 2) = -4 * (1 / Real.sqrt 2) by ring]
    generalize Real.sin (t / Real.sqrt 2) = a
    generalize Real.cos (t / Real.sqrt 2) = b
    generalize 1 / Real.sqrt 2 = c
    norm_num [Nat.testBit, Nat.shiftRight_eq_div_pow]
    norm_cast
    have e1 : s1 * a * (s1 * c * b ^ 2) = a * c * b ^ 2 := by linear_combination a * c * b ^ 2 * r1
    have e2 : s2 * a * b * (s2 * c * b ^ 2) = a * b * c * b ^ 2 := by linear_combination a * b * c * b ^ 2 * r2
    nlinarith
  · intro I i1 i2 i3
    simp only [saAlg_hamop, hψ, i1, i2, i3, if_false]
    simp

/-- C71 refuted for the `sa_SD` pool (finding F36): take two electrons in three orbitals, the pool that `fill_pool("sa_SD")` makes for them, and the ansatz with its operator 3.
For every amplitude `t` with `|t| > 1` the energy `energy_feval([t])` has derivative `-(4/√2) sin a cos a`, `a = t/√2`, but `measure_gradient` returns that number times `cos a`.
At `a = 2π/3` the two have opposite signs. -/
theorem C71_sa_refuted (o : DescSort) (so : SortOracle) (q : Bool) : ∃ P0 P : SQOpPool, SQOpPool.setOrbSpaces {} [1, 1, 0, 0, 0, 0] = .ok P0 ∧
    (∀ N fuel, SQOpPool.fillPool N o fuel P0 "sa_SD" = .ok P) ∧
    (∀ t : ℝ, 1 < |t| → (saAlg P.terms q t).tamps = [t] ∧
      HasDerivAt (fun s => (saAlg P.terms q t).evalE o so [s]) (-(4 / Real.sqrt 2) * Real.sin (t / Real.sqrt 2) * Real.cos (t / Real.sqrt 2)) t ∧
      (saAlg P.terms q t).measureGradient o so = .ok [-(4 / Real.sqrt 2) * Real.sin (t / Real.sqrt 2) * Real.cos (t / Real.sqrt 2) ^ 2]) ∧
    ∃ t : ℝ, 1 < |t| ∧ ∃ d g : ℝ, 0 < d ∧ g < 0 ∧ HasDerivAt (fun s => (saAlg P.terms q t).evalE o so [s]) d t ∧ (saAlg P.terms q t).measureGradient o so = .ok [g] := by
  obtain ⟨P0, P, e1, e2, h⟩ := sa_pool o
  have key : ∀ t : ℝ, 1 < |t| → (saAlg P.terms q t).tamps = [t] ∧
      HasDerivAt (fun s => (saAlg P.terms q t).evalE o so [s]) (-(4 / Real.sqrt 2) * Real.sin (t / Real.sqrt 2) * Real.cos (t / Real.sqrt 2)) t ∧
      (saAlg P.terms q t).measureGradient o so = .ok [-(4 / Real.sqrt 2) * Real.sin (t / Real.sqrt 2) * Real.cos (t / Real.sqrt 2) ^ 2] := by
    intro t ht
    refine ⟨rfl, ?_, ?_⟩
    · have hd : HasDerivAt (fun s : ℝ => 1 - 2 * Real.sin (s / Real.sqrt 2) ^ 2) (-(4 / Real.sqrt 2) * Real.sin (t / Real.sqrt 2) * Real.cos (t / Real.sqrt 2)) t := by
        have h1 : HasDerivAt (fun s : ℝ => s / Real.sqrt 2) (1 / Real.sqrt 2) t := (hasDerivAt_id t).div_const _
        have h2 := (Real.hasDerivAt_sin (t / Real.sqrt 2)).comp t h1
        have h3 := ((h2.pow 2).const_mul 2).const_sub 1
        convert! h3 using 1
        simp only [Function.comp_apply]
        push_cast
        ring
      refine hd.congr_of_eventuallyEq ?_
      have hb : ∀ᶠ s : ℝ in nhds t, 1 < |s| := continuous_abs.continuousAt.eventually (lt_mem_nhds ht)
      filter_upwards [hb] with s hs
      unfold UccAlg.evalE
      rw [saAlg_energy o so h q t s hs.le]
    · rw [C71_default]
      exact saAlg_gradient o so h q t t ht.le
  refine ⟨P0, P, e1, ?_, key, Real.sqrt 2 * (2 * Real.pi / 3), ?_, ?_⟩
  · intro N fuel
    unfold SQOpPool.fillPool
    rw [if_neg (by decide), show SQOpPool.maxNbody "sa_SD" = none by decide]
    simp only [if_true]
    exact e2
  · have h1 : 1 < Real.sqrt 2 := by rw [Real.lt_sqrt (by norm_num)]; norm_num
    rw [abs_of_pos (by positivity)]
    nlinarith [Real.pi_gt_three]
  · have h1 : 1 < Real.sqrt 2 := by rw [Real.lt_sqrt (by norm_num)]; norm_num
    obtain ⟨_, k1, k2⟩ := key (Real.sqrt 2 * (2 * Real.pi / 3)) (by
      rw [abs_of_pos (by positivity)]
      nlinarith [Real.pi_gt_three])
    have ea : Real.sqrt 2 * (2 * Real.pi / 3) / Real.sqrt 2 = 2 * Real.pi / 3 := by field_simp
    have hs : 0 < Real.sin (2 * Real.pi / 3) := Real.sin_pos_of_pos_of_lt_pi (by positivity) (by linarith [Real.pi_pos])
    have hc : Real.cos (2 * Real.pi / 3) = -(1 / 2) := by
      rw [show 2 * Real.pi / 3 = Real.pi - Real.pi / 3 by ring, Real.cos_pi_sub, Real.cos_pi_div_three]
    rw [ea, hc] at k1 k2
    refine ⟨_, _, ?_, ?_, k1, k2⟩
    · have : 0 < 4 / Real.sqrt 2 * Real.sin (2 * Real.pi / 3) := by positivity
      nlinarith
    · have : 0 < 4 / Real.sqrt 2 * Real.sin (2 * Real.pi / 3) := by positivity
      nlinarith

/-- the hypotheses of `C71_sa_commuting` and `C71_sa_compact` hold for a singlet single excitation on four qubits at any amplitude of at least 1 (at most 2) -/
theorem C71_sa_example (t : ℝ) (ht : 1 ≤ |t|) (q b : Bool) : ∃ (A : UccAlg) (yss : List (List (ℝ × List ℕ × List ℕ))), A.qubitExc = q ∧ A.SelectsGood yss ∧ A.saSD = true ∧
    A.compact = b ∧ A.trotterNumber = 1 ∧ A.UnitCoeffs ∧ (∀ ys ∈ yss, ∀ y ∈ ys, y.2.1 ≠ []) ∧ (|t| ≤ 2 → ∀ p ∈ saFactors [t] yss, CompactResolved p.2 p.1) ∧
    (∀ ys ∈ yss, ∀ y ∈ ys, ∀ z ∈ ys, Commute (kappa A.qubitExc y.2.1 y.2.2) (kappa A.qubitExc z.2.1 z.2.2)) ∧
    (∀ p ∈ saFactors [t] yss, AmpResolved p.2 p.1) ∧ A.Ready ∧ HermitianOn A.nqb A.ham.op ∧ A.tops.length = 1 ∧ A.tamps.length = 1 ∧ (∃ ys ∈ yss, 1 < ys.length) := by
  let ys : List (ℝ × List ℕ × List ℕ) := [(-0.5, [0], [2]), (-0.5, [1], [3])]
  let e : SQOperator := [(-0.5, [0], [2]), (-0.5, [1], [3]), (0.5, [2], [0]), (0.5, [3], [1])]
  have hm : ∀ y ∈ ys, y = (-0.5, [0], [2]) ∨ y = (-0.5, [1], [3]) := by intro y hy; simpa [ys] using hy
  have hg : SaGood 4 ys e := by
    refine ⟨⟨⟨[(0.5, [2], [0]), (0.5, [3], [1])], ?_, ?_⟩, ?_⟩, ?_, ?_, 0.5, 2, ?_, ?_⟩
    · simp only [ys, e]; norm_num
    · simp only [ys]; norm_num
    · intro y hy
      rcases hm y hy with rfl | rfl <;> refine ⟨⟨by simp, by simp, rfl, by simp, by simp, by simp⟩, by simp, ?_⟩ <;> norm_num
    · simp [e, SQOperator.klt, SQOperator.vlt]
    · intro y hy
      rcases hm y hy with rfl | rfl <;> simp
    · norm_num
    · intro y hy
      rcases hm y hy with rfl | rfl <;> exact ⟨by simp, -1, by norm_num⟩
  refine ⟨{ nqb := 4, uprep := [gX 0, gX 1], ham := [(1, [gZ 3])], pool := [(1, e)], saSD := true, tops := [0], tamps := [t], compact := b, qubitExc := q }, [ys], rfl,
    .cons ⟨1, e, rfl, hg⟩ .nil, rfl, rfl, rfl, ?_, ?_, ?_, ?_, ?_, ?_, ?_, rfl, rfl, ys, by simp, by simp [ys]⟩
  · intro i hi e' he
    have : i = 0 := by simpa using hi
    subst this
    cases he; rfl
  · intro ys' hys y hy
    have : ys' = ys := by simpa using hys
    subst this
    rcases hm y hy with rfl | rfl <;> simp
  · intro ht2 p hp
    simp only [saFactors, ys, List.zip_cons_cons, List.zip_nil_right, List.flatMap_cons, List.flatMap_nil, List.append_nil, List.map_cons, List.map_nil, List.mem_cons,
      List.not_mem_nil, or_false] at hp
    have hb : ∀ x : List ℕ × List ℕ, x.1.length = 1 → CompactResolved x (t * -0.5) := by
      intro x hx
      have ha : |t * -0.5 / 2| = |t| / 4 := by rw [abs_div, abs_mul]; norm_num; ring
      refine ⟨.inr ?_, .inr ?_⟩ <;> simp only [hx, Nat.mul_one, show 2 - 1 = 1 from rfl, pow_one]
      · have h1 := Real.one_sub_sq_div_two_le_cos (x := t * -0.5 / 2)
        rw [← sq_abs, ha] at h1
        have h2 : (|t| / 4) ^ 2 ≤ 1 / 4 := by nlinarith [abs_nonneg t]
        rw [abs_of_pos (by linarith)]
        norm_num at h1 ⊢; linarith
      · have h1 := Real.mul_abs_le_abs_sin (x := t * -0.5 / 2) (by rw [ha]; linarith [Real.pi_gt_three])
        rw [ha] at h1
        have h2 : 1 / 2 ≤ 2 / Real.pi := by rw [div_le_div_iff₀ (by norm_num) Real.pi_pos]; linarith [Real.pi_le_four]
        have h3 : 1 / 8 ≤ 2 / Real.pi * (|t| / 4) := by nlinarith
        norm_num at h1 ⊢; linarith
    rcases hp with rfl | rfl <;> exact hb _ rfl
  · intro ys' hys y hy z hz
    have : ys' = ys := by simpa using hys
    subst this
    rcases hm y hy with rfl | rfl <;> rcases hm z hz with rfl | rfl <;> first | exact Commute.refl _ | exact kappa_commute _ rfl (by simp)
  · intro p hp
    simp only [saFactors, ys, List.zip_cons_cons, List.zip_nil_right, List.flatMap_cons, List.flatMap_nil, List.append_nil, List.map_cons, List.map_nil, List.mem_cons,
      List.not_mem_nil, or_false] at hp
    have hb : ∀ x : List ℕ × List ℕ, (x.1 ++ x.2).toFinset.card = 2 → AmpResolved x (t * -0.5) := by
      intro x hx
      refine .inr ?_
      rw [hx, abs_mul]
      norm_num; linarith
    rcases hp with rfl | rfl <;> exact hb _ rfl
  · refine ⟨Computer.WF.init 4, rfl, ⟨?_, ?_⟩, ?_⟩
    · intro g hg
      simp only [List.mem_cons, List.not_mem_nil, or_false] at hg
      rcases hg with rfl | rfl <;> simp [gX]
    · intro g hg
      simp only [List.mem_cons, List.not_mem_nil, or_false] at hg
      rcases hg with rfl | rfl <;> exact (pauliGate_X _).exact
    · intro x hx
      simp only [List.mem_cons, List.not_mem_nil, or_false] at hx
      subst hx
      refine ⟨?_, ?_⟩
      · intro g hg
        simp only [List.mem_cons, List.not_mem_nil, or_false] at hg
        subst hg; simp [gZ]
      · intro g hg
        simp only [List.mem_cons, List.not_mem_nil, or_false] at hg
        subst hg; exact (pauliGate_Z _).exact
  · refine hermitian_of_real ?_
    intro x hx
    simp only [List.mem_cons, List.not_mem_nil, or_false] at hx
    subst hx
    refine ⟨by norm_num, ⟨?_, ?_, ?_⟩⟩
    · intro g hg
      simp only [List.mem_cons, List.not_mem_nil, or_false] at hg
      subst hg; exact pauliGate_Z _
    · simp [gZ]
    · intro g hg
      simp only [List.mem_cons, List.not_mem_nil, or_false] at hg
      subst hg; simp [gZ]

end QF
