import Verif.Props.Commutator
import Verif.Props.ResourcesUcc
import Verif.Props.UccTrotterGrad

/-!
C103: the two ways of computing the gradients of the pool operators compared.
-/
namespace QF

open SQOperator (DescSort jwTransform)
open QubitOperator (SortOracle)

/-- C103: with fermionic excitations `measure_operators(commutator pool, build_Uvqc())` and `measure_gradient3()` give the same gradients, up to what
the simplifications of the commutators drop. -/
theorem C103_agrees (o : DescSort) (so : SortOracle) (A : UccAlg) (hR : A.Ready) (hq : A.qubitExc = false) (hH : ∀ t ∈ A.ham, t.1.im = 0 ∧ t.2.PauliString A.nqb)
    (hp : ∀ e ∈ A.pool, ∃ c a, e.2 = excTerms c a ∧ Excit A.nqb c a ∧ c.length ≤ 19 ∧ e.1.im = 0)
    (U : Circuit) (hU : A.buildUvqc o so = .ok U) (hf : U.Fits A.nqb) (hg : ∀ g ∈ U, ExactGate g) :
    ∃ CP gs, A.fillCommutatorPool o = .ok (CP, A) ∧ A.measureGradient3 o so = .ok gs ∧ gs.length = A.pool.length ∧
      ∀ vs, A.measureOperators none CP U = .ok vs → vs.length = gs.length ∧ ∀ (m : ℕ) e v g, A.pool[m]? = some e → vs[m]? = some v → gs[m]? = some g →
        ∃ Q R, jwTransform o e.2 false = .ok (Q, R) ∧ |v - g| ≤ commErr A (U.op A.initialComputer.psi) e.1 Q := by
  obtain ⟨CP, h1, h2⟩ := C103_gradients o A hR hH hp
  obtain ⟨gs, h3, h4⟩ := C72_excitations o so A hR U hU hf hg (hermitian_of_real hH) hp
  refine ⟨CP, gs, h1, h3, h4.length_eq.symm, fun vs hv => ?_⟩
  have h5 := (h2 U [] hf hg (by simp)).1 vs hv
  rw [selected, if_pos rfl] at h5
  refine ⟨h5.length_eq.symm.trans h4.length_eq, fun m e v g he hv' hg' => ?_⟩
  obtain ⟨hm, he⟩ := List.getElem?_eq_some_iff.1 he
  obtain ⟨hm1, hv'⟩ := List.getElem?_eq_some_iff.1 hv'
  obtain ⟨hm2, hg'⟩ := List.getElem?_eq_some_iff.1 hg'
  have k1 := (List.forall₂_iff_get.1 h5).2 m hm hm1
  have k2 := (List.forall₂_iff_get.1 h4).2 m hm hm2
  simp only [List.get_eq_getElem] at k1 k2
  rw [he, hv'] at k1
  rw [he, hg'] at k2
  obtain ⟨c, a, hc, hx, _⟩ := hp e (he ▸ List.getElem_mem hm)
  obtain ⟨Q, R, d, x1, x2, x3⟩ := k1 c a hc
  have y := (k2 c a hc hx).2
  obtain ⟨k, hK, ha⟩ := kappa_skew false c a
  have hV : IsFlow (kappa false c a) (skewExp _ k) := fun s => isExp_skew hK ha s
  rw [hq] at y
  have := (x3 _ hV).unique (y _ hV)
  exact ⟨Q, R, x1, this ▸ x2⟩

/-- a three-qubit algorithm with one qubit excitation across an occupied qubit, and nothing in the ansatz yet -/
noncomputable def crossAlg : UccAlg where
  nqb := 3
  uprep := [gX 0, gX 1]
  ham := [(1, [gX 0, gX 2])]
  pool := [(1, excTerms [2] [0])]
  tops := []
  tamps := []
  qubitExc := true

theorem crossAlg_ham : ∀ t ∈ crossAlg.ham, t.1.im = 0 ∧ t.2.PauliString 3 := by
  intro t ht
  simp only [crossAlg, List.mem_cons, List.not_mem_nil, or_false] at ht
  subst ht
  refine ⟨by norm_num, ⟨?_, ?_, ?_⟩⟩
  all_goals first
    | (intro g hg
       simp only [List.mem_cons, List.not_mem_nil, or_false] at hg
       rcases hg with rfl | rfl <;> exact pauliGate_X _)
    | (simp [gX]; done)
    | (intro g hg
       simp only [List.mem_cons, List.not_mem_nil, or_false] at hg
       rcases hg with rfl | rfl <;> simp [gX])

theorem crossAlg_ready : crossAlg.Ready := by
  refine ⟨Computer.WF.init 3, rfl, ⟨?_, ?_⟩, ?_⟩
  · intro g hg
    simp only [crossAlg, List.mem_cons, List.not_mem_nil, or_false] at hg
    rcases hg with rfl | rfl <;> simp [gX, crossAlg]
  · intro g hg
    simp only [crossAlg, List.mem_cons, List.not_mem_nil, or_false] at hg
    rcases hg with rfl | rfl <;> exact (pauliGate_X _).exact
  · intro t ht
    have := (crossAlg_ham t ht).2
    exact ⟨this.fits, fun g hg => (this.gates g hg).exact⟩

theorem crossAlg_pool : ∀ e ∈ crossAlg.pool, ∃ c a, e.2 = excTerms c a ∧ Excit crossAlg.nqb c a ∧ c.length ≤ 19 ∧ e.1.im = 0 := by
  intro e he
  simp only [crossAlg, List.mem_cons, List.not_mem_nil, or_false] at he
  subst he
  exact ⟨[2], [0], rfl, by constructor <;> simp [crossAlg], by simp, by simp⟩

theorem crossAlg_reference : crossAlg.reference = Pi.single 3 1 := by
  have e : crossAlg.reference = opX 1 (opX 0 (Computer.init 3).psi) := by
    show Circuit.op [gX 0, gX 1] (Computer.init 3).psi = _
    simp [Circuit.op]
  have h0 : (Computer.init 3).psi = (Pi.single 0 1 : St) := by
    rw [init_psi]; funext I; rw [Pi.single_apply]
  rw [e, h0, opX_single, opX_single]
  rfl

theorem crossAlg_hamop : crossAlg.ham.op (Pi.single 3 1) = Pi.single 6 1 := by
  have e : crossAlg.ham.op = opX 2 * opX 0 := by
    show QubitOperator.op [(1, [gX 0, gX 2])] = _
    simp [QubitOperator.op, Circuit.op]
  rw [e, Module.End.mul_apply, opX_single, opX_single]
  rfl

theorem cross_kappa (q : Bool) : kappa q [2] [0] (Pi.single 3 1 : St) = (if q then 1 else -1 : ℂ) • (Pi.single 6 1 : St) := by
  funext I
  rw [kappa_apply, Pi.smul_apply, Pi.single_apply, Pi.single_apply]
  have hl : lmask (caList [2] [0]) = 5 := by decide
  rw [hl]
  by_cases h : I = 6
  · subst h
    have v1 : lvalid (caList [2] [0]) 6 = true := by decide
    have v2 : lvalid (caList [2] [0]) 3 = false := by decide
    have s1 : lsign (caList [2] [0]) 6 = -1 := by
      have n1 : nBelow 6 2 = 1 := by decide
      have n2 : nBelow 2 0 = 0 := by decide
      have e : flipBit 6 2 = 2 := by decide
      simp [lsign, caList, fsign, e, n1, n2]
    simp [v1, v2, s1]
  · have : I ^^^ 5 ≠ 3 := fun h' => h (by have := congrArg (· ^^^ 5) h'; simpa [Nat.xor_assoc] using this)
    simp [h, this]

/-- C103, refuted for qubit excitations (finding F79): `fill_commutator_pool` does not pass `qubit_excitations` on, so that the gradients measured with
its operators belong to the fermionic excitations.  Here the energy rises along the only operator of the pool, `measure_gradient3()` returns 2, and
`measure_operators` with the commutator pool about -2. -/
theorem C103_refuted (o : DescSort) (so : SortOracle) : crossAlg.qubitExc = true ∧ ∃ U CP v, crossAlg.buildUvqc o so = .ok U ∧
    crossAlg.fillCommutatorPool o = .ok (CP, crossAlg) ∧ crossAlg.measureOperators none CP U = .ok [v] ∧ |v + 2| ≤ 1e-10 ∧
    crossAlg.measureGradient3 o so = .ok [2] ∧
    ∀ V, IsFlow (kappa true [2] [0]) V → HasDerivAt (fun s => energy 3 crossAlg.ham.op (V s (Pi.single 3 1))) 2 0 := by
  have hx : Excit 3 [2] [0] := by constructor <;> simp
  obtain ⟨C, c1, c2, c3, c4⟩ := C70_exact o so crossAlg [] .nil rfl rfl (by simp [crossAlg]) [] (by simp) [] .nil
  obtain ⟨U, q, u1, u2, w, n, p⟩ := build_of_ansatz o so crossAlg [] crossAlg_ready c1 c2 (fun g hg => (c3 g hg).2) c4
  have hUC : U = crossAlg.uprep ++ C := by
    unfold UccAlg.buildUvqc at u1
    rw [c1, except_ok_bind] at u1
    simp only [addCircuit_eq, List.nil_append, pure, Except.pure] at u1
    exact (Except.ok.inj u1).symm
  have hf : U.Fits 3 := by
    rw [hUC]; intro g hg
    rcases List.mem_append.1 hg with hg | hg
    · exact crossAlg_ready.prep.1 g hg
    · exact c4 g hg
  have hg : ∀ g ∈ U, ExactGate g := by
    rw [hUC]; intro g hg
    rcases List.mem_append.1 hg with hg | hg
    · exact crossAlg_ready.prep.2 g hg
    · exact (c3 g hg).2
  have hψ : U.op crossAlg.initialComputer.psi = Pi.single 3 1 := by
    rw [hUC, Circuit.op_append, c2, Module.End.mul_apply]
    have : crossAlg.uprep.op crossAlg.initialComputer.psi = crossAlg.reference := rfl
    rw [this, crossAlg_reference]
    simp [uccOp, applyInOrder]
  obtain ⟨CP, f1, f2⟩ := C103_gradients o crossAlg crossAlg_ready crossAlg_ham crossAlg_pool
  obtain ⟨g1, g2⟩ := f2 U [] hf hg (by simp)
  rw [hψ] at g1 g2
  have hherm : HermitianOn 3 crossAlg.ham.op := hermitian_of_real crossAlg_ham
  have hon : OnReg 3 (Pi.single 3 1 : St) := by
    have := psi_onReg w
    rw [n, p, crossAlg_reference] at this
    simpa [uccOp, applyInOrder, crossAlg] using this
  have hin : ∀ q, (inner 3 (crossAlg.ham.op (Pi.single 3 1)) (kappa q [2] [0] (Pi.single 3 1))).re = if q then 1 else -1 := by
    intro q
    rw [crossAlg_hamop, cross_kappa, inner_smul_right]
    have : inner 3 (Pi.single 6 1) (Pi.single 6 1) = 1 := by
      unfold inner
      rw [Finset.sum_eq_single 6] <;> simp +contextual
    rw [this]; cases q <;> simp
  have hd : ∀ q : Bool, ∀ V, IsFlow (kappa q [2] [0]) V → HasDerivAt (fun s => energy 3 crossAlg.ham.op (V s (Pi.single 3 1))) (if q then 2 else -2) 0 := by
    intro q V hV
    obtain ⟨d, d1, _, d2⟩ := comm_slope hherm (q := q) hx hon (z := 1) (by simp)
    have := d2 V hV
    rw [hin] at d1
    have hd : d = if q then 2 else -2 := by rw [d1]; cases q <;> norm_num
    rw [hd] at this
    simpa using this
  obtain ⟨Q, R, q1, q2, _⟩ := C102_strings o hx (by simp) (by decide) (by simp) false
  have herr : ∀ Q' R', jwTransform o (excTerms [2] [0]) false = .ok (Q', R') → commErr crossAlg (Pi.single 3 1) 1 Q' ≤ 1e-10 := by
    intro Q' R' hQ
    rw [q1] at hQ; cases hQ
    have hn : nrm 3 (Pi.single 3 1 : St) = 1 := by
      unfold nrm
      rw [Finset.sum_eq_single 3] <;> simp +contextual
    show ‖(1 : ℂ)‖ * ((4 * (1 * Q.length) : ℕ) * 1e-12 * nrm 3 (Pi.single 3 1 : St) ^ 2) ≤ _
    rw [hn, q2]; norm_num
  obtain ⟨vs, hvs⟩ := g2 (by
    intro e he Q' R' hQ
    have he : e = (1, excTerms [2] [0]) := by simpa [selected, crossAlg] using he
    subst he
    exact (herr Q' R' hQ).trans (by norm_num))
  have h5 := g1 vs hvs
  have hsel : selected crossAlg.pool [] = [(1, excTerms [2] [0])] := rfl
  rw [hsel] at h5
  obtain ⟨v, rfl⟩ : ∃ v, vs = [v] := List.length_eq_one_iff.1 h5.length_eq.symm
  obtain ⟨Q', R', d, k1, k2, k3⟩ := (List.forall₂_cons.1 h5).1 [2] [0] rfl
  obtain ⟨k, hK, ha⟩ := kappa_skew false [2] [0]
  have hdv : d = -2 := by
    have h6 := k3 (skewExp _ k) fun s => isExp_skew hK ha s
    have h7 := hd false (skewExp _ k) fun s => isExp_skew hK ha s
    simp only [Complex.one_re, mul_one] at h6
    simpa using h6.unique h7
  refine ⟨rfl, U, CP, v, u1, f1, hvs, ?_, ?_, fun V hV => by simpa using hd true V hV⟩
  · rw [hdv, sub_neg_eq_add] at k2
    exact k2.trans (herr Q' R' k1)
  · obtain ⟨gs, m1, m2⟩ := C72_excitations o so crossAlg crossAlg_ready U u1 hf hg hherm crossAlg_pool
    rw [m1]
    have hpl : crossAlg.pool = [(1, excTerms [2] [0])] := rfl
    rw [hpl] at m2
    obtain ⟨g, rfl⟩ : ∃ v, gs = [v] := List.length_eq_one_iff.1 m2.length_eq.symm
    have := ((List.forall₂_cons.1 m2).1 [2] [0] rfl hx).2
    obtain ⟨k, hK, ha⟩ := kappa_skew true [2] [0]
    have h6 := this (skewExp _ k) fun s => isExp_skew hK ha s
    have h7 := hd true (skewExp _ k) fun s => isExp_skew hK ha s
    rw [hψ] at h6
    simp only [Complex.one_re, mul_one] at h6
    have : g = 2 := by simpa using h6.unique h7
    rw [this]

/-- the error bound of the example's gradients is small enough for the run's check -/
theorem exampleAlg_commErr (o : DescSort) : ∀ e ∈ exampleAlg.pool, ∀ Q R, jwTransform o e.2 false = .ok (Q, R) → commErr exampleAlg (exampleAlg.uprep.op exampleAlg.initialComputer.psi) e.1 Q ≤ 1e-7 := by
  have hn : nrm 4 (exampleAlg.uprep.op exampleAlg.initialComputer.psi) = 1 := by
    have e : exampleAlg.uprep.op exampleAlg.initialComputer.psi = opX 1 (opX 0 (Computer.init 4).psi) := by
      show Circuit.op [gX 0, gX 1] (Computer.init 4).psi = _
      simp [Circuit.op]
    have h0 : (Computer.init 4).psi = (Pi.single 0 1 : St) := by
      rw [init_psi]; funext I; rw [Pi.single_apply]
    rw [e, h0, opX_single, opX_single, show flipBit (flipBit 0 0) 1 = 3 by decide]
    unfold nrm
    rw [Finset.sum_eq_single 3] <;> simp +contextual
  have x1 : Excit 4 [3, 2] [1, 0] := by constructor <;> simp
  have x2 : Excit 4 [2] [0] := by constructor <;> simp
  intro e he Q R hQ
  simp only [exampleAlg, List.mem_cons, List.not_mem_nil, or_false] at he
  rcases he with rfl | rfl
  · obtain ⟨Q', R', q1, q2, _⟩ := C102_strings o x2 (by simp) (by decide) (by simp) false
    rw [q1] at hQ; cases hQ
    show ‖(1 : ℂ)‖ * ((4 * (3 * Q.length) : ℕ) * 1e-12 * nrm 4 _ ^ 2) ≤ _
    rw [hn, q2]; norm_num
  · obtain ⟨Q', R', q1, q2, _⟩ := C102_strings o x1 (by simp) (by decide) (by simp) false
    rw [q1] at hQ; cases hQ
    show ‖(1 : ℂ)‖ * ((4 * (3 * Q.length) : ℕ) * 1e-12 * nrm 4 _ ^ 2) ≤ _
    rw [hn, q2]; norm_num

/-- C103: the four-qubit example, with its two excitations and Pauli strings of all three letters, meets the hypotheses, and its commutator pool and
gradients exist for both selections of operators. -/
theorem C103_example (o : DescSort) : exampleAlg.qubitExc = false ∧ (∀ t ∈ exampleAlg.ham, t.1.im = 0 ∧ t.2.PauliString exampleAlg.nqb) ∧
    ∃ CP, exampleAlg.fillCommutatorPool o = .ok (CP, exampleAlg) ∧ CP.length = 2 ∧
      (∃ vs, exampleAlg.measureOperators none CP exampleAlg.uprep = .ok vs ∧ vs.length = 2) ∧
      ∃ vs, exampleAlg.measureOperators none CP exampleAlg.uprep [1] = .ok vs ∧ vs.length = 1 := by
  have hH : ∀ t ∈ exampleAlg.ham, t.1.im = 0 ∧ t.2.PauliString exampleAlg.nqb := fun t ht => ⟨(exampleAlg_ham t ht).1, (exampleAlg_ham t ht).2.1⟩
  obtain ⟨_, _, hR, _, _, _, hp⟩ := C71_example
  obtain ⟨CP, f1, f2⟩ := C103_gradients o exampleAlg hR hH hp
  obtain ⟨CP', f3, f4⟩ := C103_pool o exampleAlg (fun t ht => (hH t ht).2) fun e he => by
    obtain ⟨c, a, x1, x2, x3, _⟩ := hp e he; exact ⟨c, a, x1, x2, x3⟩
  rw [f1] at f3
  cases f3
  refine ⟨rfl, hH, CP, f1, f4.length_eq.symm, ?_⟩
  have herr := exampleAlg_commErr o
  have key : ∀ idxs : List ℤ, (∀ i ∈ idxs, 0 ≤ i ∧ i < exampleAlg.pool.length) → ∃ vs, exampleAlg.measureOperators none CP exampleAlg.uprep idxs = .ok vs ∧
      vs.length = (selected exampleAlg.pool idxs).length := by
    intro idxs hi
    obtain ⟨g1, g2⟩ := f2 exampleAlg.uprep idxs hR.prep.1 hR.prep.2 hi
    obtain ⟨vs, hvs⟩ := g2 fun e he => herr e (selected_mem hi he)
    exact ⟨vs, hvs, (g1 vs hvs).length_eq.symm⟩
  exact ⟨key [] (by simp), key [1] (by simp [exampleAlg])⟩

end QF
