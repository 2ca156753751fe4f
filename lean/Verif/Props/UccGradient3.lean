import Verif.Props.UccGradient
import Verif.Lemmas.ApplyErr

/-!
C72: `measure_gradient3`, the gradient with respect to a pool operator not yet in the ansatz; and concrete cases of C70, C71, C72.
-/
namespace QF

open SQOperator (DescSort jwTransform)
open QubitOperator (SortOracle)

/-- an operator with real coefficients on Pauli strings is Hermitian -/
theorem hermitian_of_real {n : ℕ} {H : QubitOperator} (h : ∀ t ∈ H, t.1.im = 0 ∧ t.2.PauliString n) : HermitianOn n H.op := by
  have hP : ∀ c : Circuit, c.PauliString n → ∀ φ ψ, inner n φ (c.op ψ) = inner n (c.op φ) ψ := by
    intro c hc φ ψ
    have hi : c.IPauliString := ⟨fun g hg => ⟨.inr (hc.gates g hg).letter, (hc.gates g hg).make⟩, hc.distinct⟩
    have hu : ∀ g ∈ c, MatUnitary g.target g.control g.mat := fun g hg => C02_unitary (.make (hc.gates g hg).make)
    rw [← inner_circuit hc.fits hu φ (c.op ψ), ← Module.End.mul_apply, pauliString_sq hi]; rfl
  intro φ ψ
  induction H with
  | nil => simp [QubitOperator.op, inner]
  | cons t H ih =>
    have e : QubitOperator.op (t :: H) = t.1 • t.2.op + QubitOperator.op H := by simp [QubitOperator.op]
    obtain ⟨h1, h2⟩ := h t (by simp)
    have hz : (starRingEnd ℂ) t.1 = t.1 := Complex.conj_eq_iff_im.2 h1
    rw [e, LinearMap.add_apply, LinearMap.add_apply, inner_add_right, inner_add_left, ih (fun t ht => h t (by simp [ht])), LinearMap.smul_apply,
      LinearMap.smul_apply, inner_smul_right, hP _ h2]
    congr 1
    unfold inner
    rw [Finset.mul_sum]
    refine Finset.sum_congr rfl fun I _ => ?_
    rw [Pi.smul_apply, smul_eq_mul, map_mul, hz, mul_assoc]

theorem mapM_forall₂ {α β : Type} {f : α → Except Exc β} {R : α → β → Prop} (l : List α) (h : ∀ a ∈ l, ∃ b, f a = .ok b ∧ R a b) :
    ∃ r, l.mapM f = .ok r ∧ List.Forall₂ R l r := by
  induction l with
  | nil => exact ⟨[], by simp [pure, Except.pure], .nil⟩
  | cons a l ih =>
    obtain ⟨b, h1, h2⟩ := h a (by simp)
    obtain ⟨r, h3, h4⟩ := ih fun a ha => h a (by simp [ha])
    exact ⟨b :: r, by rw [List.mapM_cons, h1, except_ok_bind, h3]; rfl, .cons h2 h4⟩

/-- C72: whatever the ansatz, entry `m` of `measure_gradient3()` is `2 Re ⟨ψ|H z_m K_m|ψ⟩`, with `ψ` the state prepared by the ansatz
circuit and `K_m` the Jordan-Wigner transform of pool operator `m`. -/
theorem C72_value (o : DescSort) (so : SortOracle) (A : UccAlg) (hR : A.Ready) (U : Circuit) (hU : A.buildUvqc o so = .ok U) (hf : U.Fits A.nqb)
    (hg : ∀ g ∈ U, ExactGate g)
    (hp : ∀ e ∈ A.pool, ∃ Q R, jwTransform o e.2 A.qubitExc = .ok (Q, R) ∧ ∀ t ∈ Q, t.2.Fits A.nqb ∧ ∀ g ∈ t.2, ExactGate g) :
    ∃ gs, A.measureGradient3 o so = .ok gs ∧ List.Forall₂ (fun (e : ℂ × SQOperator) g => ∃ Q R, jwTransform o e.2 A.qubitExc = .ok (Q, R) ∧
      g = 2 * (inner A.nqb (A.ham.op (U.op A.initialComputer.psi)) ((e.1 • Q.op) (U.op A.initialComputer.psi))).re) A.pool gs := by
  obtain ⟨psi, e1, w, n, p⟩ := applyCircuit_exact (q := A.initialComputer) U hR.wf (by rw [hR.size]; exact hf) hg
  rw [hR.size] at n
  obtain ⟨sig, e3, w3, n3, p3⟩ := C24_apply_operator psi A.ham w (by rw [n]; exact hR.ham)
  unfold UccAlg.measureGradient3
  rw [hU, except_ok_bind, e1, except_ok_bind, e3, except_ok_bind]
  refine mapM_forall₂ A.pool fun e he => ?_
  obtain ⟨Q, R, h1, h2⟩ := hp e he
  have hQz : ∀ u ∈ Q.multCoeffs e.1, u.2.Fits psi.nqubit ∧ ∀ g ∈ u.2, ExactGate g := by
    intro u hu
    obtain ⟨v, hv, rfl⟩ := List.mem_map.1 hu
    rw [n]; exact h2 v hv
  obtain ⟨temp, f1, f2, f3, f4⟩ := C24_apply_operator psi (Q.multCoeffs e.1) w hQz
  have hop : (Q.multCoeffs e.1).op = e.1 • Q.op := by
    unfold QubitOperator.op QubitOperator.multCoeffs
    rw [List.map_map, List.smul_sum, List.map_map]
    congr 1
    refine List.map_congr_left fun u _ => ?_
    simp only [Function.comp_def, smul_smul, mul_comm]
  refine ⟨_, ?_, Q, R, h1, rfl⟩
  rw [h1, except_ok_bind]
  simp only
  rw [f1, except_ok_bind]
  unfold UccAlg.gradVal Computer.dot
  rw [innerProd_inner w3 f2 (by rw [f3, n3]), except_ok_bind, n3, n, f4, hop, p3, p]; rfl

/-- C72: for a pool of excitations with real coefficients, entry `m` is `⟨ψ|[H, z_m κ_m]|ψ⟩` and the derivative, at amplitude zero, of the
energy of `exp(s z_m κ_m) ψ`: the slope that ADAPT-VQE uses to choose the next operator. -/
theorem C72_excitations (o : DescSort) (so : SortOracle) (A : UccAlg) (hR : A.Ready) (U : Circuit) (hU : A.buildUvqc o so = .ok U) (hf : U.Fits A.nqb)
    (hg : ∀ g ∈ U, ExactGate g) (hH : HermitianOn A.nqb A.ham.op)
    (hp : ∀ e ∈ A.pool, ∃ c a, e.2 = excTerms c a ∧ Excit A.nqb c a ∧ c.length ≤ 19 ∧ e.1.im = 0) :
    ∃ gs, A.measureGradient3 o so = .ok gs ∧ List.Forall₂ (fun (e : ℂ × SQOperator) (g : ℝ) => ∀ c a, e.2 = excTerms c a → Excit A.nqb c a →
      (g : ℂ) = inner A.nqb (U.op A.initialComputer.psi)
        ((A.ham.op * (e.1 • kappa A.qubitExc c a) - (e.1 • kappa A.qubitExc c a) * A.ham.op) (U.op A.initialComputer.psi)) ∧
      ∀ V, IsFlow (kappa A.qubitExc c a) V → HasDerivAt (fun s => energy A.nqb A.ham.op (V (s * e.1.re) (U.op A.initialComputer.psi))) g 0) A.pool gs := by
  obtain ⟨psi, e1, w, n, p⟩ := applyCircuit_exact (q := A.initialComputer) U hR.wf (by rw [hR.size]; exact hf) hg
  rw [hR.size] at n
  have hψ : OnReg A.nqb (U.op A.initialComputer.psi) := by rw [← p, ← n]; exact psi_onReg w
  obtain ⟨gs, h1, h2⟩ := C72_value o so A hR U hU hf hg (by
    intro e he
    obtain ⟨c, a, e1, e2, e3, _⟩ := hp e he
    obtain ⟨k, hK, ha⟩ := kappa_skew A.qubitExc c a
    obtain ⟨Q, f1, f2⟩ := gradOp_exists o e2 e3 A.qubitExc (V := skewExp _ k) (fun s => isExp_skew hK ha s)
    exact ⟨Q, _, by rw [e1]; exact f1, f2.exact⟩)
  refine ⟨gs, h1, ?_⟩
  have h3 : List.Forall₂ (fun (e : ℂ × SQOperator) g => e ∈ A.pool ∧ ∃ Q R, jwTransform o e.2 A.qubitExc = .ok (Q, R) ∧
      g = 2 * (inner A.nqb (A.ham.op (U.op A.initialComputer.psi)) ((e.1 • Q.op) (U.op A.initialComputer.psi))).re) A.pool gs := by
    rw [List.forall₂_and_left]; exact ⟨fun p hp => hp, h2⟩
  refine h3.imp fun e g ⟨he, Q, R, hj, hgv⟩ c a hc hx => ?_
  obtain ⟨c', a', f1, f2, f3, f4⟩ := hp e he
  have hz : e.1 = (e.1.re : ℂ) := Complex.ext rfl (by simpa using f4)
  have hr : c.length ≤ 19 := by
    have hl := congrArg (fun l => (l.map fun t : SQTerm => t.2.1.length + t.2.2.length).sum) (hc.symm.trans f1)
    have r1 := hx.rank
    have r2 := f2.rank
    have : ∀ c a : List ℕ, ((excTerms c a).map fun t : SQTerm => t.2.1.length + t.2.2.length).sum = 2 * (c.length + a.length) := by
      intro c a; unfold excTerms; split <;> simp <;> omega
    simp only [this] at hl
    omega
  obtain ⟨k, hK, ha⟩ := kappa_skew A.qubitExc c a
  obtain ⟨Q', k1, k2⟩ := gradOp_exists o hx hr A.qubitExc (V := skewExp _ k) (fun s => isExp_skew hK ha s)
  rw [hc, k1] at hj; cases hj
  rw [k2.op] at hgv
  generalize U.op A.initialComputer.psi = ψ at *
  constructor
  · have hF := kappa_flow (q := A.qubitExc) hx.bound_c hx.bound_a (V := skewExp _ k) (fun s => isExp_skew hK ha s)
    have e1 : inner A.nqb ψ ((A.ham.op * (e.1 • kappa A.qubitExc c a) - (e.1 • kappa A.qubitExc c a) * A.ham.op) ψ) =
        inner A.nqb (A.ham.op ψ) ((e.1 • kappa A.qubitExc c a) ψ) + (starRingEnd ℂ) (inner A.nqb (A.ham.op ψ) ((e.1 • kappa A.qubitExc c a) ψ)) := by
      have hconj : (starRingEnd ℂ) (inner A.nqb (A.ham.op ψ) ((e.1 • kappa A.qubitExc c a) ψ)) = inner A.nqb ((e.1 • kappa A.qubitExc c a) ψ) (A.ham.op ψ) := by
        unfold inner
        rw [map_sum]
        refine Finset.sum_congr rfl fun I _ => ?_
        simp [mul_comm]
      have hsub : ∀ a b : St, inner A.nqb ψ (a - b) = inner A.nqb ψ a - inner A.nqb ψ b := by
        intro a b
        unfold inner
        rw [← Finset.sum_sub_distrib]
        refine Finset.sum_congr rfl fun I _ => ?_
        rw [Pi.sub_apply, mul_sub]
      have hl : ∀ φ χ : St, inner A.nqb (e.1 • φ) χ = e.1 * inner A.nqb φ χ := by
        intro φ χ
        unfold inner
        rw [Finset.mul_sum]
        refine Finset.sum_congr rfl fun I _ => ?_
        rw [Pi.smul_apply, smul_eq_mul, map_mul, Complex.conj_eq_iff_im.2 f4, mul_assoc]
      have h2 : inner A.nqb ψ ((e.1 • kappa A.qubitExc c a) (A.ham.op ψ)) = -inner A.nqb ((e.1 • kappa A.qubitExc c a) ψ) (A.ham.op ψ) := by
        rw [LinearMap.smul_apply, LinearMap.smul_apply, inner_smul_right, hF.anti, hl]; ring
      rw [hconj, LinearMap.sub_apply, hsub, Module.End.mul_apply, Module.End.mul_apply, hH, h2, sub_neg_eq_add]
    rw [e1, Complex.add_conj, hgv]
  · intro V hV
    have hF := kappa_flow (q := A.qubitExc) hx.bound_c hx.bound_a hV
    have h0 : V 0 ψ = ψ := by
      have : V 0 = 1 := (hV 0).unique (by simpa using isExp_zero)
      rw [this]; rfl
    have hd := deriv_energy hH (f := fun s => V s ψ) (f' := kappa A.qubitExc c a ψ) (s := 0) (fun s => hF.reg s _ hψ) (hF.regK _ hψ) (by
      intro I; have := hF.deriv 0 ψ I; rwa [h0] at this)
    rw [h0] at hd
    have hlin : HasDerivAt (fun s : ℝ => s * e.1.re) e.1.re 0 := by simpa using (hasDerivAt_id (0 : ℝ)).mul_const e.1.re
    have hd' : HasDerivAt (fun x => energy A.nqb A.ham.op (V x ψ)) (2 * (inner A.nqb (A.ham.op ψ) (kappa A.qubitExc c a ψ)).re) ((fun s : ℝ => s * e.1.re) 0) := by
      simpa using hd
    have := hd'.comp (0 : ℝ) hlin
    convert! this using 1
    rw [hgv, LinearMap.smul_apply, inner_smul_right, hz, Complex.re_ofReal_mul]
    simp only [Complex.ofReal_re]
    ring

/-- a four-qubit algorithm with two excitations that do not commute -/
noncomputable def exampleAlg : UccAlg where
  nqb := 4
  uprep := [gX 0, gX 1]
  ham := [(0.5, [gZ 0]), (-0.25, [gX 0, gX 3]), (0.125, [gY 1, gY 2])]
  pool := [(1, excTerms [2] [0]), (1, excTerms [3, 2] [1, 0])]
  tops := [1, 0]
  tamps := [0.1, -0.2]


theorem exampleAlg_ham : ∀ t ∈ exampleAlg.ham, t.1.im = 0 ∧ t.2.PauliString 4 ∧ Even t.2.numY := by
  intro t ht
  simp only [exampleAlg, List.mem_cons, List.not_mem_nil, or_false] at ht
  rcases ht with rfl | rfl | rfl <;> refine ⟨by norm_num, ⟨?_, ?_, ?_⟩, ?_⟩
  all_goals first
    | (intro g hg
       simp only [List.mem_cons, List.not_mem_nil, or_false] at hg
       rcases hg with rfl | rfl <;> first | exact pauliGate_X _ | exact pauliGate_Y _ | exact pauliGate_Z _)
    | (intro g hg
       simp only [List.mem_cons, List.not_mem_nil, or_false] at hg
       subst hg; exact pauliGate_Z _)
    | (simp [gX, gY, gZ]; done)
    | (intro g hg
       simp only [List.mem_cons, List.not_mem_nil, or_false] at hg
       rcases hg with rfl | rfl <;> simp [gX, gY, gZ])
    | (intro g hg
       simp only [List.mem_cons, List.not_mem_nil, or_false] at hg
       subst hg; simp [gX, gY, gZ])
    | decide

/-- C70, C71 and C72: the example meets the hypotheses of the theorems. -/
theorem C71_example : exampleAlg.Selects [([3, 2], [1, 0]), ([2], [0])] ∧ exampleAlg.UnitCoeffs ∧ exampleAlg.Ready ∧
    HermitianOn exampleAlg.nqb exampleAlg.ham.op ∧
    (∀ p ∈ List.zip exampleAlg.tamps [(([3, 2] : List ℕ), ([1, 0] : List ℕ)), ([2], [0])], AmpResolved p.2 p.1) ∧
    exampleAlg.tamps.length = exampleAlg.tops.length ∧
    (∀ e ∈ exampleAlg.pool, ∃ c a, e.2 = excTerms c a ∧ Excit exampleAlg.nqb c a ∧ c.length ≤ 19 ∧ e.1.im = 0) := by
  have x1 : Excit 4 [3, 2] [1, 0] := by constructor <;> simp
  have x2 : Excit 4 [2] [0] := by constructor <;> simp
  refine ⟨.cons ⟨1, rfl, x1, by simp⟩ (.cons ⟨1, rfl, x2, by simp⟩ .nil), ?_, ?_, hermitian_of_real fun t ht => ⟨(exampleAlg_ham t ht).1, (exampleAlg_ham t ht).2.1⟩, ?_, rfl, ?_⟩
  · intro i hi e he
    simp only [exampleAlg, List.mem_cons, List.not_mem_nil, or_false] at hi he
    rcases hi with rfl | rfl <;> simp at he <;> rw [← he]
  · refine ⟨Computer.WF.init 4, rfl, ⟨?_, ?_⟩, ?_⟩
    · intro g hg
      simp only [exampleAlg, List.mem_cons, List.not_mem_nil, or_false] at hg
      rcases hg with rfl | rfl <;> simp [gX, exampleAlg]
    · intro g hg
      simp only [exampleAlg, List.mem_cons, List.not_mem_nil, or_false] at hg
      rcases hg with rfl | rfl <;> exact (pauliGate_X _).exact
    · intro t ht
      have := (exampleAlg_ham t ht).2.1
      exact ⟨this.fits, fun g hg => (this.gates g hg).exact⟩
  · intro p hp
    simp only [exampleAlg, List.zip_cons_cons, List.zip_nil_right, List.mem_cons, List.not_mem_nil, or_false] at hp
    rcases hp with rfl | rfl <;> refine .inr ?_ <;> norm_num
  · intro e he
    simp only [exampleAlg, List.mem_cons, List.not_mem_nil, or_false] at he
    rcases he with rfl | rfl
    · exact ⟨_, _, rfl, x2, by simp, by simp⟩
    · exact ⟨_, _, rfl, x1, by simp, by simp⟩

end QF
