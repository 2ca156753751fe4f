import Verif.Model.Hadamard
import Verif.Props.Experiment
import Verif.Props.Krylov
import Verif.Lemmas.CtrlTrotter

/-!
C79: the Hadamard tests of SRQK.
-/
namespace QF

theorem off_proj {a : ℕ} {U : Op} (hU : OffQubit a U) {b : Bool} {I : ℕ} (h : I.testBit a = b) (φ : St) : U φ I = U (proj a b φ) I := by
  have := congrFun (LinearMap.congr_fun (hU.proj b).eq φ) I
  rw [Module.End.mul_apply, Module.End.mul_apply, proj_apply, if_pos h] at this
  exact this

theorem off_flip {a : ℕ} {U : Op} (hU : OffQubit a U) (φ : St) (I : ℕ) : U (opX a φ) (flipBit I a) = U φ I := by
  have : opX a * U = U * opX a := (hU _).eq
  have := congrFun (LinearMap.congr_fun this φ) (flipBit I a)
  rw [Module.End.mul_apply, Module.End.mul_apply, opX_apply, flipBit_flipBit] at this
  exact this.symm

/-- the state of a Hadamard test, measured with `X + i Y` on the ancilla -/
theorem hadamard_core {n : ℕ} {Wm V Wk : Op} (hm : OffQubit n Wm) (hV : OffQubit n V) (hk : OffQubit n Wk) {φ : St} (hφ : ∀ I, I.testBit n = true → φ I = 0)
    {Ψ : St} (hΨ : Ψ = ctrlOp n false Wm (ctrlOp n true V (ctrlOp n true Wk ((gH n).op φ)))) :
    inner (n + 1) Ψ (opX n Ψ) + Complex.I * inner (n + 1) Ψ (opY n Ψ) = inner n (Wm φ) (V (Wk φ)) := by
  have hH : ∀ I, (gH n).op φ I = ((1 / Real.sqrt 2 : ℝ) : ℂ) * (if I.testBit n then φ (flipBit I n) else φ I) := by
    intro I
    rw [op_gH, LinearMap.smul_apply, Pi.smul_apply, LinearMap.add_apply, Pi.add_apply, opX_apply, opZ_apply, smul_eq_mul]
    congr 1
    cases h : I.testBit n
    · rw [hφ (flipBit I n) (by rw [testBit_flipBit, if_pos rfl, h]; rfl)]; simp
    · rw [hφ I h]; simp
  have p0 : proj n false ((gH n).op φ) = ((1 / Real.sqrt 2 : ℝ) : ℂ) • φ := by
    funext I
    rw [proj_apply, hH, Pi.smul_apply, smul_eq_mul]
    cases h : I.testBit n
    · simp
    · rw [hφ I h]; simp
  have p1 : proj n true ((gH n).op φ) = ((1 / Real.sqrt 2 : ℝ) : ℂ) • opX n φ := by
    funext I
    rw [proj_apply, hH, Pi.smul_apply, smul_eq_mul, opX_apply]
    cases h : I.testBit n
    · rw [hφ (flipBit I n) (by rw [testBit_flipBit, if_pos rfl, h]; rfl)]; simp
    · simp
  have v0 : ∀ I, I.testBit n = false → Ψ I = ((1 / Real.sqrt 2 : ℝ) : ℂ) * Wm φ I := by
    intro I hI
    rw [hΨ, ctrlOp_apply, if_pos hI, off_proj hm hI]
    have : proj n false (ctrlOp n true V (ctrlOp n true Wk ((gH n).op φ))) = proj n false ((gH n).op φ) := by
      funext J
      rw [proj_apply, proj_apply, ctrlOp_apply, ctrlOp_apply]
      cases J.testBit n <;> simp
    rw [this, p0, map_smul]; rfl
  have v1 : ∀ I, I.testBit n = false → Ψ (flipBit I n) = ((1 / Real.sqrt 2 : ℝ) : ℂ) * V (Wk φ) I := by
    intro I hI
    have hf : (flipBit I n).testBit n = true := by rw [testBit_flipBit, if_pos rfl, hI]; rfl
    rw [hΨ, ctrlOp_apply, if_neg (by rw [hf]; decide), ctrlOp_apply, if_pos hf, off_proj hV hf]
    have : proj n true (ctrlOp n true Wk ((gH n).op φ)) = proj n true (Wk ((gH n).op φ)) := by
      funext J
      rw [proj_apply, proj_apply, ctrlOp_apply]
      cases J.testBit n <;> simp
    rw [this, ← off_proj hV hf, ← Module.End.mul_apply, off_proj (hV.mul hk) hf, p1, map_smul, Pi.smul_apply, off_flip (hV.mul hk)]; rfl
  have hs : ((1 / Real.sqrt 2 : ℝ) : ℂ) * ((1 / Real.sqrt 2 : ℝ) : ℂ) * 2 = 1 := by
    rw [← Complex.ofReal_mul, div_mul_div_comm, Real.mul_self_sqrt (by norm_num)]; norm_num
  unfold inner
  rw [Finset.mul_sum, ← Finset.sum_add_distrib]
  rw [← Finset.sum_subset (s₁ := Finset.range (2 ^ n)) (by
    intro I hI; rw [Finset.mem_range] at hI ⊢; exact hI.trans (by rw [pow_succ]; have := Nat.two_pow_pos n; omega))]
  · refine Finset.sum_congr rfl fun I hI => ?_
    have hb : I.testBit n = false := Nat.testBit_lt_two_pow (Finset.mem_range.1 hI)
    rw [opX_apply, opY_apply, hb, v0 I hb, v1 I hb, map_mul, Complex.conj_ofReal]
    simp only [Bool.false_eq_true, if_false]
    have := Complex.I_mul_I
    linear_combination ((starRingEnd ℂ) (Wm φ I) * V (Wk φ) I) * hs - ((1 / Real.sqrt 2 : ℝ) : ℂ) * ((1 / Real.sqrt 2 : ℝ) : ℂ) * ((starRingEnd ℂ) (Wm φ I) * V (Wk φ) I) * this
  · intro I h1 h2
    have hb : I.testBit n = true := by
      rw [Finset.mem_range] at h1 h2
      rw [Nat.testBit_eq_decide_div_mod_eq]
      have : I / 2 ^ n = 1 := by
        apply Nat.div_eq_of_lt_le <;> [omega; (rw [pow_succ] at h1; omega)]
      rw [this]; rfl
    rw [opX_apply, opY_apply, hb]
    simp only [if_true]
    have := Complex.I_mul_I
    linear_combination ((starRingEnd ℂ) (Ψ I) * Ψ (flipBit I n)) * this


theorem foldl_addTerm_map (A : QubitOperator) (f : ℂ → ℂ) (T : QubitOperator) :
    A.foldl (fun T t => QubitOperator.addTerm T (f t.1) t.2) T = T ++ A.map fun t => (f t.1, t.2) := by
  induction A generalizing T with
  | nil => simp
  | cons t A ih => rw [List.foldl_cons, ih]; simp [QubitOperator.addTerm]

theorem timeOp_eq (A : QkAlg) (n : ℕ) : A.timeOp n = A.ham.map fun t => (-Complex.I * n * A.dt * t.1, t.2) := by
  unfold QkAlg.timeOp
  rw [foldl_addTerm_map A.ham (fun z => -Complex.I * n * A.dt * z)]; rfl

/-- the controlled evolution: circuit, phase, and their meaning -/
theorem ctrlEvolution_ok {A : QkAlg} (hA : A.Ready) (n : ℕ) : ∃ C ph W, trotterizeWCRz (A.timeOp n) A.nqb 1 false A.trotterNumber 1 = .ok (C, ph) ∧
    C.op = ctrlOp A.nqb true W ∧ OffQubit A.nqb W ∧ (∀ Φ : St, TrotterState A.ham A.trotterNumber (n * A.dt) Φ (ph • W Φ)) ∧
    C.Fits (A.nqb + 1) ∧ ∀ g ∈ C, ExactGate g := by
  have hmem : ∀ t ∈ A.ham, A.nqb ∉ t.2.map Gate.target := by
    intro t ht hc
    obtain ⟨g, hg, e⟩ := List.mem_map.1 hc
    have := ((hA.ham t ht).2.fits g hg).1
    omega
  obtain ⟨C, ph, W, Vs, h1, h2, h3, h4, h5, h6, _⟩ := ctrlTrotter_ok (A.timeOp n) 1 A.trotterNumber A.nqb (by
    intro t ht
    rw [timeOp_eq] at ht
    obtain ⟨x, hx, rfl⟩ := List.mem_map.1 ht
    exact ⟨trotterTerm_of (hA.ham x hx).2, hmem x hx⟩) (by
    intro t ht
    rw [timeOp_eq] at ht
    obtain ⟨x, hx, rfl⟩ := List.mem_map.1 ht
    have := (hA.ham x hx).1
    simp [this])
  refine ⟨C, ph, W, h1, h3, h5, fun Φ => ⟨Vs, ?_, ?_⟩, fun g hg => ?_, fun g hg => (h6 g hg).1.2⟩
  · rw [timeOp_eq, List.forall₂_map_left_iff] at h2
    refine h2.imp ?_
    intro t V hV
    convert! hV using 3
    push_cast; ring
  · rw [← h4]; rfl
  · obtain ⟨t, ht, a, b⟩ := (h6 g hg).2
    rw [timeOp_eq] at ht
    obtain ⟨x, hx, rfl⟩ := List.mem_map.1 ht
    have key : ∀ j ∈ A.nqb :: x.2.map Gate.target, j < A.nqb + 1 := by
      intro j hj
      rcases List.mem_cons.1 hj with rfl | hj
      · omega
      · obtain ⟨y, hy, rfl⟩ := List.mem_map.1 hj
        have := ((hA.ham x hx).2.fits y hy).1
        omega
    exact ⟨key _ a, key _ b⟩

theorem offQubit_circuit {n : ℕ} {c : Circuit} (h : c.Fits n) : OffQubit n c.op := by
  intro m
  refine circuit_comm_op1 m fun g hg => ?_
  have := h g hg
  omega

/-- the controlled string -/
theorem ctrlString_ok {n : ℕ} {V : Circuit} (hV : V.PauliString n) : ∃ C, QkAlg.ctrlString n V = .ok C ∧ C.op = ctrlOp n true V.op ∧
    C.Fits (n + 1) ∧ ∀ g ∈ C, ExactGate g := by
  have key : ∀ (V C : Circuit), (∀ g ∈ V, PauliGate g ∧ g.target < n ∧ g.control < n) → ∃ D, V.foldlM (fun (C : Circuit) g => (do
      let x ← pyGate2 ("c" ++ g.label) g.target n
      pure (C.addGate x) : Except Exc Circuit)) C = .ok (C ++ D) ∧ Circuit.op D = ctrlOp n true (Circuit.op V) ∧ Circuit.Fits (n + 1) D ∧ ∀ g ∈ D, ExactGate g := by
    intro V
    induction V with
    | nil => intro C _; exact ⟨[], by simp [pure, Except.pure], (ctrlOp_one _ _).symm, by simp [Circuit.Fits], by simp⟩
    | cons g V ih =>
      intro C h
      obtain ⟨hp, ht, hc⟩ := h g (by simp)
      have hne : g.target ≠ n := by omega
      obtain ⟨x, e1, e2, e3⟩ : ∃ x, pyGate2 ("c" ++ g.label) g.target n = .ok x ∧ (∃ ty, makeGate ty g.target n 0 = .ok x ∧ x.param = none) ∧
          x.op = ctrlOp n true g.op := by
        have mk : ∀ ty : String, ty ∈ ["cX", "cY", "cZ"] → ∃ x, pyGate2 ty g.target n = .ok x ∧ (∃ ty, makeGate ty g.target n 0 = .ok x ∧ x.param = none) ∧
            stdGate ty g.target n 0 = some x.op := by
          intro ty hty
          simp only [List.mem_cons, List.not_mem_nil, or_false] at hty
          rcases hty with rfl | rfl | rfl
          · have hm := makeGate_of_made (.cX g.target n 0 hne)
            exact ⟨_, by unfold pyGate2; rw [if_pos (by decide)]; exact hm, ⟨_, hm, rfl⟩, (makeGate_spec hm).2.2.2⟩
          · have hm := makeGate_of_made (.cY g.target n 0 hne)
            exact ⟨_, by unfold pyGate2; rw [if_pos (by decide)]; exact hm, ⟨_, hm, rfl⟩, (makeGate_spec hm).2.2.2⟩
          · have hm := makeGate_of_made (.cZ g.target n 0 hne)
            exact ⟨_, by unfold pyGate2; rw [if_pos (by decide)]; exact hm, ⟨_, hm, rfl⟩, (makeGate_spec hm).2.2.2⟩
        rcases hp.cases with e | e | e
        · obtain ⟨x, a, b, c⟩ := mk "cX" (by simp)
          refine ⟨x, by rw [e]; exact a, b, ?_⟩
          rw [e, op_gX]
          simp [stdGate, hne] at c
          rw [← c]
        · obtain ⟨x, a, b, c⟩ := mk "cY" (by simp)
          refine ⟨x, by rw [e]; exact a, b, ?_⟩
          rw [e, op_gY]
          simp [stdGate, hne] at c
          rw [← c]
        · obtain ⟨x, a, b, c⟩ := mk "cZ" (by simp)
          refine ⟨x, by rw [e]; exact a, b, ?_⟩
          rw [e, op_gZ]
          simp [stdGate, hne] at c
          rw [← c]
      obtain ⟨ty, m1, m2⟩ := e2
      obtain ⟨D, f1, f2, f3, f4⟩ := ih (C ++ [x]) fun y hy => h y (by simp [hy])
      have hxt := (makeGate_spec m1).2
      refine ⟨x :: D, ?_, ?_, ?_, ?_⟩
      · rw [List.foldlM_cons, e1]
        simp only [except_ok_bind, pure, Except.pure, Circuit.addGate] at f1 ⊢
        rw [f1]; simp
      · rw [Circuit.op_cons, Circuit.op_cons, f2]
        show _ * x.op = _
        rw [e3]
        exact ctrlOp_mul (offQubit_circuit fun y hy => (h y (by simp [hy])).2)
      · intro y hy
        rcases List.mem_cons.1 hy with rfl | hy
        · rw [hxt.1, hxt.2.1]; omega
        · exact f3 y hy
      · intro y hy
        rcases List.mem_cons.1 hy with rfl | hy
        · exact (C08_hypotheses_constant_gates m1 m2).1
        · exact f4 y hy
  obtain ⟨D, f1, f2⟩ := key V [] fun g hg => ⟨hV.gates g hg, hV.fits g hg⟩
  exact ⟨D, f1, f2⟩


theorem inner_real_of_pauli {n : ℕ} {c : Circuit} (hc : c.PauliString n) (ψ : St) : ((inner n ψ (c.op ψ)).re : ℂ) = inner n ψ (c.op ψ) := by
  have h := hermitian_of_real (n := n) (H := [(1, c)]) (by
    intro t ht; rw [List.mem_singleton.1 ht]; exact ⟨by simp, hc⟩)
  have e : QubitOperator.op [(1, c)] = c.op := by simp [QubitOperator.op]
  rw [e] at h
  have h2 : (starRingEnd ℂ) (inner n ψ (c.op ψ)) = inner n ψ (c.op ψ) := by rw [inner_conj]; exact (h ψ ψ).symm
  exact Complex.conj_eq_iff_re.1 h2

/-- one Hadamard test -/
theorem hadamardTest_ok {A : QkAlg} (hA : A.Ready) {Uk cV Ub : Circuit} {Wk V Wm : Op} (k1 : Uk.op = ctrlOp A.nqb true Wk) (k2 : OffQubit A.nqb Wk)
    (k3 : Uk.Fits (A.nqb + 1)) (k4 : ∀ g ∈ Uk, ExactGate g) (v1 : cV.op = ctrlOp A.nqb true V) (v2 : OffQubit A.nqb V) (v3 : cV.Fits (A.nqb + 1))
    (v4 : ∀ g ∈ cV, ExactGate g) (b1 : Ub.op = ctrlOp A.nqb true Wm) (b2 : OffQubit A.nqb Wm) (b3 : Ub.Fits (A.nqb + 1)) (b4 : ∀ g ∈ Ub, ExactGate g) :
    A.hadamardTest Uk cV Ub = .ok (inner A.nqb (Wm (A.uprep.op (Computer.init A.nqb).psi)) (V (Wk (A.uprep.op (Computer.init A.nqb).psi)))) := by
  have eH : pyGate2 "H" A.nqb A.nqb = .ok (gH A.nqb) := by
    unfold pyGate2; rw [if_neg (by decide), if_pos ⟨rfl, by decide⟩]; exact make_H _ _
  have eX : pyGate2 "X" A.nqb A.nqb = .ok (gX A.nqb) := by
    unfold pyGate2; rw [if_neg (by decide), if_pos ⟨rfl, by decide⟩]; exact make_X _ _
  have eY : pyGate2 "Y" A.nqb A.nqb = .ok (gY A.nqb) := by
    unfold pyGate2; rw [if_neg (by decide), if_pos ⟨rfl, by decide⟩]; exact make_Y _ _
  have oX : QkAlg.ancOp "X" A.nqb = .ok [(1, [gX A.nqb])] := by unfold QkAlg.ancOp; rw [eX]; rfl
  have oY : QkAlg.ancOp "Y" A.nqb = .ok [(1, [gY A.nqb])] := by unfold QkAlg.ancOp; rw [eY]; rfl
  have pX : Circuit.PauliString (A.nqb + 1) [gX A.nqb] := ⟨by simpa using pauliGate_X _, by simp, by intro g hg; rw [List.mem_singleton.1 hg]; simp [gX]⟩
  have pY : Circuit.PauliString (A.nqb + 1) [gY A.nqb] := ⟨by simpa using pauliGate_Y _, by simp, by intro g hg; rw [List.mem_singleton.1 hg]; simp [gY]⟩
  let cir : Circuit := A.uprep ++ [gH A.nqb] ++ Uk ++ cV ++ [gX A.nqb] ++ Ub ++ [gX A.nqb]
  have hfit : cir.Fits (A.nqb + 1) := by
    intro g hg
    simp only [cir, List.mem_append, List.mem_singleton] at hg
    rcases hg with (((((hg | rfl) | hg) | hg) | rfl) | hg) | rfl
    · have := hA.prep.1 g hg; omega
    · simp [gH]
    · exact k3 g hg
    · exact v3 g hg
    · simp [gX]
    · exact b3 g hg
    · simp [gX]
  have hex : ∀ g ∈ cir, ExactGate g := by
    intro g hg
    simp only [cir, List.mem_append, List.mem_singleton] at hg
    rcases hg with (((((hg | rfl) | hg) | hg) | rfl) | hg) | rfl
    · exact hA.prep.2 g hg
    · exact exact_H _
    · exact k4 g hg
    · exact v4 g hg
    · exact (pauliGate_X _).exact
    · exact b4 g hg
    · exact (pauliGate_X _).exact
  have hΦ : A.uprep.op (Computer.init A.nqb).psi = A.uprep.op (Pi.single 0 1) := by rw [(C60_init A.nqb).2]
  let E (O : QubitOperator) : Experiment := { nQubits := A.nqb + 1, generator := cir, operator := O, nSamples := 100 }
  have hst : ∀ O, (E O).state = ctrlOp A.nqb false Wm (ctrlOp A.nqb true V (ctrlOp A.nqb true Wk ((gH A.nqb).op (A.uprep.op (Computer.init A.nqb).psi)))) := by
    intro O
    show Circuit.op cir (Pi.single 0 1) = _
    rw [hΦ, ← x_ctrl_x (b2 _), ← b1, ← v1, ← k1]
    simp only [cir, Circuit.op_append, Circuit.op_cons, Circuit.op_nil, Module.End.mul_apply, one_mul, op_gX]
  have hrun : ∀ c : Circuit, c.PauliString (A.nqb + 1) → (E [(1, c)]).perfectAvg = .ok (inner (A.nqb + 1) (E []).state (c.op (E []).state)).re := by
    intro c hc
    rw [C78_perfect (E [(1, c)]) ⟨hfit, hex, by intro t ht; rw [List.mem_singleton.1 ht]; exact hc, rfl⟩]
    have e : QubitOperator.op [(1, c)] = c.op := by simp [QubitOperator.op]
    show Except.ok (inner (A.nqb + 1) (E [(1, c)]).state (QubitOperator.op [(1, c)] (E [(1, c)]).state)).re = _
    rw [e]; rfl
  have hzero : ∀ I, I.testBit A.nqb = true → A.uprep.op (Computer.init A.nqb).psi I = 0 := by
    intro I hI
    obtain ⟨q, _, w, n1, p⟩ := applyCircuit_exact (q := Computer.init A.nqb) A.uprep (Computer.WF.init _) hA.prep.1 hA.prep.2
    rw [← p]
    refine psi_onReg w I ?_
    rw [n1]
    exact Nat.ge_two_pow_of_testBit hI
  have core := hadamard_core b2 v2 k2 hzero (hst [])
  have cX : Circuit.op [gX A.nqb] = opX A.nqb := by rw [Circuit.op_cons, Circuit.op_nil, one_mul, op_gX]
  have cY : Circuit.op [gY A.nqb] = opY A.nqb := by rw [Circuit.op_cons, Circuit.op_nil, one_mul, op_gY]
  unfold QkAlg.hadamardTest
  simp only [eH, eX, oX, oY, except_ok_bind, addCircuit_eq, Circuit.addGate]
  have hx := hrun _ pX
  have hy := hrun _ pY
  simp only [E, cir] at hx hy
  rw [hx, except_ok_bind, hy, except_ok_bind]
  simp only [pure, Except.pure]
  congr 1
  rw [← core, ← cX, ← cY]
  exact congrArg₂ (fun a b : ℂ => a + Complex.I * b) (inner_real_of_pauli pX _) (inner_real_of_pauli pY _)

/-- C79: `matrix_element(m, n)` is the overlap of the evolved states, and with `use_op=True` the matrix element of the Hamiltonian. -/
theorem C79_matrix_element (A : QkAlg) (hA : A.Ready) : ∃ ψ : ℕ → St,
    (∀ m : ℕ, TrotterState A.ham A.trotterNumber (m * A.dt) (A.uprep.op (Computer.init A.nqb).psi) (ψ m)) ∧
    ∀ m n, A.matrixElement m n false = .ok (inner A.nqb (ψ m) (ψ n)) ∧ A.matrixElement m n true = .ok (inner A.nqb (ψ m) (A.ham.op (ψ n))) := by
  choose C ph W h1 h2 h3 h4 h5 h6 using fun n => ctrlEvolution_ok hA n
  let Φ := A.uprep.op (Computer.init A.nqb).psi
  refine ⟨fun m => ph m • W m Φ, fun m => h4 m Φ, fun m n => ⟨?_, ?_⟩⟩
  · unfold QkAlg.matrixElement
    simp only [h1, except_ok_bind, foldl_addGate, List.nil_append, Bool.not_false, if_true]
    rw [hadamardTest_ok hA (cV := []) (V := 1) (h2 n) (h3 n) (h5 n) (h6 n) ((Circuit.op_nil).trans (ctrlOp_one _ _).symm) (.one _)
      (by intro g hg; cases hg) (by intro g hg; cases hg) (h2 m) (h3 m) (h5 m) (h6 m)]
    simp only [except_ok_bind, pure, Except.pure]
    rw [inner_smul_left', inner_smul_right]
    congr 1
    show inner A.nqb (W m Φ) (W n Φ) * _ * _ = _
    ring
  · unfold QkAlg.matrixElement
    simp only [h1, except_ok_bind, foldl_addGate, List.nil_append, Bool.not_true, Bool.false_eq_true, if_false]
    have key : ∀ (L : QubitOperator) (z : ℂ), (∀ t ∈ L, t.2.PauliString A.nqb) → L.foldlM (fun (value : ℂ) t => (do
        let cV ← QkAlg.ctrlString A.nqb t.2
        let v ← A.hadamardTest (C n) cV (C m)
        pure (value + t.1 * (v * ph n * (starRingEnd ℂ) (ph m))) : Except Exc ℂ)) z = .ok (z + inner A.nqb (ph m • W m Φ) (L.op (ph n • W n Φ))) := by
      intro L
      induction L with
      | nil => intro z _; simp [pure, Except.pure, QubitOperator.op, inner]
      | cons t L ih =>
        intro z hL
        obtain ⟨cV, c1, c2, c3, c4⟩ := ctrlString_ok (hL t (by simp))
        rw [List.foldlM_cons]
        simp only [c1, except_ok_bind,
          hadamardTest_ok hA (h2 n) (h3 n) (h5 n) (h6 n) c2 (offQubit_circuit (hL t (by simp)).fits) c3 c4 (h2 m) (h3 m) (h5 m) (h6 m), pure, Except.pure]
        have := ih (z + t.1 * (inner A.nqb (W m Φ) (t.2.op (W n Φ)) * ph n * (starRingEnd ℂ) (ph m))) fun x hx => hL x (by simp [hx])
        simp only [pure, Except.pure] at this
        rw [this]
        congr 1
        unfold QubitOperator.op
        rw [List.map_cons, List.sum_cons, LinearMap.add_apply, inner_add_right, LinearMap.smul_apply, inner_smul_right, add_assoc]
        congr 2
        rw [map_smul, inner_smul_left', inner_smul_right]
        ring
    have := key A.ham 0 fun t ht => (hA.ham t ht).2
    rw [zero_add] at this
    exact this

/-- C79: the matrices built from Hadamard tests are the ones of the state-vector route (`C77_srqk`). -/
theorem C79_realistic (A : QkAlg) (hA : A.Ready) (h0 : 1 ≤ A.nstates) : ∃ S H S' H', A.realisticMats = .ok (S, H) ∧ A.srqkMats = .ok (S', H') ∧
    ∀ m < A.nstates, ∀ n < A.nstates, S m n = S' m n ∧ H m n = H' m n := by
  obtain ⟨ψ, hψ, hel⟩ := C79_matrix_element A hA
  obtain ⟨S', H', ψ', e', hψ', hel'⟩ := C77_srqk A hA h0
  have hsame : ∀ m, ψ m = ψ' m := fun m => (hψ m).unique (hψ' m)
  have hH := hermitian_of_real hA.ham
  have inn : ∀ (p : ℕ) (l : List ℕ) (M : NMat × NMat), ∃ M', l.foldlM (fun (M : NMat × NMat) q => (do
      let h ← A.matrixElement p q true
      let s ← A.matrixElement p q false
      pure ((M.1.set p q s).set q p ((starRingEnd ℂ) s), (M.2.set p q h).set q p ((starRingEnd ℂ) h)) : Except Exc (NMat × NMat))) M = .ok M' ∧
      ∀ a b, (M'.1 a b = inner A.nqb (ψ a) (ψ b) ∧ M'.2 a b = inner A.nqb (ψ a) (A.ham.op (ψ b))) ∨
        (M'.1 a b = M.1 a b ∧ M'.2 a b = M.2 a b ∧ ¬(a = p ∧ b ∈ l) ∧ ¬(b = p ∧ a ∈ l)) := by
    intro p l
    induction l with
    | nil => intro M; exact ⟨M, rfl, fun a b => .inr ⟨rfl, rfl, by simp, by simp⟩⟩
    | cons q l ih =>
      intro M
      obtain ⟨M', f1, f2⟩ := ih ((M.1.set p q (inner A.nqb (ψ p) (ψ q))).set q p ((starRingEnd ℂ) (inner A.nqb (ψ p) (ψ q))),
        (M.2.set p q (inner A.nqb (ψ p) (A.ham.op (ψ q)))).set q p ((starRingEnd ℂ) (inner A.nqb (ψ p) (A.ham.op (ψ q)))))
      refine ⟨M', ?_, ?_⟩
      · rw [List.foldlM_cons]
        simp only [(hel p q).1, (hel p q).2, except_ok_bind, pure, Except.pure] at f1 ⊢
        exact f1
      · intro a b
        rcases f2 a b with h | ⟨g1, g2, g3, g4⟩
        · exact .inl h
        · by_cases c1 : a = q ∧ b = p
          · obtain ⟨rfl, rfl⟩ := c1
            left
            simp only [NMat.set, and_self, if_true] at g1 g2
            rw [g1, g2, inner_conj, inner_conj]
            exact ⟨rfl, (hH _ _).symm⟩
          · by_cases c2 : a = p ∧ b = q
            · left
              simp only [NMat.set, if_neg c1, if_pos c2] at g1 g2
              obtain ⟨rfl, rfl⟩ := c2
              exact ⟨g1, g2⟩
            · right
              simp only [NMat.set, if_neg c1, if_neg c2] at g1 g2
              refine ⟨g1, g2, ?_, ?_⟩
              · rintro ⟨x, y⟩
                rcases List.mem_cons.1 y with y | y
                · exact c2 ⟨x, y⟩
                · exact g3 ⟨x, y⟩
              · rintro ⟨x, y⟩
                rcases List.mem_cons.1 y with y | y
                · exact c1 ⟨y, x⟩
                · exact g4 ⟨x, y⟩
  have out : ∀ (ps : List ℕ) (M : NMat × NMat), ∃ M', ps.foldlM (fun M p => ((List.range A.nstates).filter fun q => p ≤ q).foldlM (fun (M : NMat × NMat) q => (do
      let h ← A.matrixElement p q true
      let s ← A.matrixElement p q false
      pure ((M.1.set p q s).set q p ((starRingEnd ℂ) s), (M.2.set p q h).set q p ((starRingEnd ℂ) h)) : Except Exc (NMat × NMat))) M) M = .ok M' ∧
      ∀ a b, (M'.1 a b = inner A.nqb (ψ a) (ψ b) ∧ M'.2 a b = inner A.nqb (ψ a) (A.ham.op (ψ b))) ∨
        (M'.1 a b = M.1 a b ∧ M'.2 a b = M.2 a b ∧ ∀ p ∈ ps, ¬(a = p ∧ b ∈ (List.range A.nstates).filter fun q => p ≤ q) ∧
          ¬(b = p ∧ a ∈ (List.range A.nstates).filter fun q => p ≤ q)) := by
    intro ps
    induction ps with
    | nil => intro M; exact ⟨M, rfl, fun a b => .inr ⟨rfl, rfl, by simp⟩⟩
    | cons p ps ih =>
      intro M
      obtain ⟨M1, f1, f2⟩ := inn p ((List.range A.nstates).filter fun q => p ≤ q) M
      obtain ⟨M2, g1, g2⟩ := ih M1
      refine ⟨M2, ?_, ?_⟩
      · rw [List.foldlM_cons, f1, except_ok_bind, g1]
      · intro a b
        rcases g2 a b with h | ⟨k1, k2, k3⟩
        · exact .inl h
        · rcases f2 a b with h | ⟨l1, l2, l3, l4⟩
          · left; rw [k1, k2]; exact h
          · right
            refine ⟨k1.trans l1, k2.trans l2, ?_⟩
            intro p' hp'
            rcases List.mem_cons.1 hp' with rfl | hp'
            · exact ⟨l3, l4⟩
            · exact k3 p' hp'
  obtain ⟨M, f1, f2⟩ := out (List.range A.nstates) zeroMats
  refine ⟨M.1, M.2, S', H', f1, e', fun m hm n hn => ?_⟩
  obtain ⟨i1, i2⟩ := hel' m hm n hn
  rw [i1, i2, ← hsame, ← hsame]
  rcases f2 m n with h | ⟨_, _, h⟩
  · exact h
  · exfalso
    rcases le_total m n with hl | hl
    · exact (h m (List.mem_range.2 hm)).1 ⟨rfl, List.mem_filter.2 ⟨List.mem_range.2 hn, by simpa using hl⟩⟩
    · exact (h n (List.mem_range.2 hn)).2 ⟨rfl, List.mem_filter.2 ⟨List.mem_range.2 hm, by simpa using hl⟩⟩

/-- The hypotheses of C79 are met by a two-qubit algorithm with two non-commuting terms and two Trotter slices (`C77_example`), for which both
routes return. -/
theorem C79_example : ∃ A : QkAlg, A.Ready ∧ 2 ≤ A.ham.length ∧ A.trotterNumber = 2 ∧ (∃ M, A.realisticMats = .ok M) ∧ ∃ v, A.matrixElement 1 2 true = .ok v := by
  obtain ⟨A, hA, h2, h1, ht, _⟩ := C77_example
  obtain ⟨S, H, _, _, e, _⟩ := C79_realistic A hA h1
  obtain ⟨ψ, _, h⟩ := C79_matrix_element A hA
  exact ⟨A, hA, h2, ht, ⟨_, e⟩, _, (h 1 2).2⟩

end QF
