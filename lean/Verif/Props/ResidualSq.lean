import Verif.Props.PqeRun
import Verif.Props.SpqePool
import Verif.Props.UccGradient3
import Verif.Model.ResidualSq

/-!
C112: what the optimizers of UCCNPQE minimise.
-/
namespace QF

open SQOperator (DescSort jwTransform)
open QubitOperator (SortOracle)
open SQOpPool (NextPerm)
open Adapt

/-- `⟨κ_x R| U† H U |R⟩` for the state `U|R⟩` made by the circuit `C`: the overlap of the Hamiltonian acting on it with the transformed excited determinant -/
noncomputable def circuitResidual (n : ℕ) (q : Bool) (H : Op) (C : Circuit) (R : ℕ) (x : List ℕ × List ℕ) : ℂ :=
  inner n (C.op (kappa q x.1 x.2 (Pi.single R 1))) (H (C.op (Pi.single R 1)))

/-- the variance `⟨H²⟩ - ⟨H⟩²` of a Hermitian operator in a normalised state -/
noncomputable def variance (n : ℕ) (H : Op) (ψ : St) : ℝ := (inner n (H ψ) (H ψ)).re - energy n H ψ ^ 2

theorem f₂_right {α β : Type} {R : α → β → Prop} {l : List α} {m : List β} (h : List.Forall₂ R l m) {b : β} (hb : b ∈ m) : ∃ a ∈ l, R a b := by
  induction h with
  | nil => cases hb
  | cons hx _ ih =>
    rcases List.mem_cons.1 hb with rfl | hb
    · exact ⟨_, by simp, hx⟩
    · obtain ⟨a, ha, h⟩ := ih hb; exact ⟨a, by simp [ha], h⟩

theorem f₂_left {α β : Type} {R : α → β → Prop} {l : List α} {m : List β} (h : List.Forall₂ R l m) {a : α} (ha : a ∈ l) : ∃ b ∈ m, R a b := f₂_right h.flip ha

theorem residual_circuit (o : DescSort) (so : SortOracle) {A : PqeAlg} {ys : List (List ℕ × List ℕ)} (hs : A.saSD = false) {ts : List ℝ} {C : Circuit}
    (h1 : A.ansatzCircuit o so (some ts) = .ok C) (h3 : ∀ g ∈ C, ApiGate g ∧ ExactGate g) (h4 : C.Fits A.nqb) (hR : A.Ready) (h0 : A.computer = none) {R : ℕ}
    (href : A.reference = Pi.single R 1) {dets : List (ℕ × ℂ)} (hd : List.Forall₂ (Excites A.nqb A.qubitExc R) ys dets) :
    A.residualVector o so dets ts = (ys.map (circuitResidual A.nqb A.qubitExc A.ham.op C R)).mapM
      (fun r => if open Classical in r.im ≠ 0 then .error .valueError else pure r) := by
  have e0 : A.initialComputer = Computer.init A.nqb := by unfold UccAlg.initialComputer; rw [h0]; rfl
  obtain ⟨q1, e1, w1, n1, p1⟩ := applyCircuit_exact (q := Computer.init A.nqb) A.uprep (Computer.WF.init _) hR.prep.1 hR.prep.2
  obtain ⟨q2, e2, w2, n2, p2⟩ := applyCircuit_exact (q := q1) C w1 (by rw [n1]; exact h4) (fun g hg => (h3 g hg).2)
  have hn2 : q2.nqubit = A.nqb := n2.trans n1
  obtain ⟨q3, e3, w3, n3, p3⟩ := C24_apply_operator q2 A.ham w2 (by rw [hn2]; exact hR.ham)
  have hn3 : q3.nqubit = A.nqb := n3.trans hn2
  obtain ⟨q4, e4, w4, n4, p4⟩ := applyCircuit_exact (q := q3) C.adjoint w3 (by rw [hn3]; exact adj_fits h4) (adjoint_exact h3)
  have hn4 : q4.nqubit = A.nqb := n4.trans hn3
  have hun := circuit_adjoint_op (fun g hg => (h3 g hg).1)
  have hval : ∀ J, J < 2 ^ A.nqb → q4.coeff[J]? = some (q4.psi J) := by
    intro J hJ
    have hlen : J < q4.coeff.length := by rw [w4.len, hn4]; exact hJ
    rw [List.getElem?_eq_getElem hlen]
    simp only [Computer.psi, vec, List.getD_eq_getElem _ _ hlen]
  have hpsi : C.op q4.psi = A.ham.op (C.op (Pi.single R 1)) := by
    rw [← href, p4, ← Module.End.mul_apply, hun.2, Module.End.one_apply, p3, p2, p1, UccAlg.reference, e0]
  unfold PqeAlg.residualVector
  rw [if_neg (by simp [hs]), h1, except_ok_bind, e1, except_ok_bind, e2, except_ok_bind, e3, except_ok_bind, e4, except_ok_bind, List.mapM_map]
  clear h1
  induction hd with
  | nil => rfl
  | @cons x d ys dets hx hd ih =>
    obtain ⟨x1, x2, _, x3⟩ := hx
    have key : q4.psi d.1 * d.2 = circuitResidual A.nqb A.qubitExc A.ham.op C R x := by
      unfold circuitResidual
      rw [x3, map_smul, ← hpsi]
      have hz : (starRingEnd ℂ) d.2 = d.2 := by rcases x1 with e | e <;> rw [e] <;> simp
      have e5 : inner A.nqb (d.2 • C.op (Pi.single d.1 1)) (C.op q4.psi) = d.2 * inner A.nqb (C.op (Pi.single d.1 1)) (C.op q4.psi) := by
        unfold inner
        rw [Finset.mul_sum]
        refine Finset.sum_congr rfl fun I _ => ?_
        rw [Pi.smul_apply, smul_eq_mul, map_mul, hz, mul_assoc]
      rw [e5, inner_circuit h4 (fun g hg => C02_unitary (h3 g hg).1), mul_comm]
      congr 1
      unfold inner
      rw [Finset.sum_eq_single d.1]
      · simp
      · intro I _ hI; simp [Pi.single_eq_of_ne hI]
      · intro hI; exact absurd (Finset.mem_range.2 x2) hI
    rw [List.mapM_cons, List.mapM_cons, pyIndex_ok (hval d.1 x2), except_ok_bind, ih]
    simp only [key]
    rfl

theorem inner_single (n : ℕ) {I : ℕ} (hI : I < 2 ^ n) (ψ : St) : inner n (Pi.single I 1) ψ = ψ I := by
  unfold inner
  rw [Finset.sum_eq_single I]
  · simp
  · intro J _ hJ; simp [Pi.single_eq_of_ne hJ]
  · intro h; exact absurd (Finset.mem_range.2 hI) h

theorem inner_self_norm (n : ℕ) (ψ : St) : inner n ψ ψ = ((∑ I ∈ Finset.range (2 ^ n), ‖ψ I‖ ^ 2 : ℝ) : ℂ) := by
  unfold inner
  push_cast
  refine Finset.sum_congr rfl fun I _ => ?_
  rw [mul_comm, Complex.mul_conj, Complex.normSq_eq_norm_sq]; push_cast; rfl

/-- the residuals are, up to signs, the coefficients of the determinants made by the excitations in the transformed state `χ = U† H U |R⟩` -/
theorem circuitResidual_eq {n : ℕ} {q : Bool} {H : Op} {C : Circuit} {R : ℕ} (h3 : ∀ g ∈ C, ApiGate g) (h4 : C.Fits n) {x : List ℕ × List ℕ} {d : ℕ × ℂ}
    (hx : Excites n q R x d) : ‖circuitResidual n q H C R x‖ = ‖C.adjoint.op (H (C.op (Pi.single R 1))) d.1‖ := by
  have hun := circuit_adjoint_op h3
  obtain ⟨x1, x2, -, x3⟩ := hx
  have e : C.op (C.adjoint.op (H (C.op (Pi.single R 1)))) = H (C.op (Pi.single R 1)) := by
    rw [← Module.End.mul_apply, hun.2, Module.End.one_apply]
  unfold circuitResidual
  rw [x3, map_smul, ← e, inner_smul_left', inner_circuit h4 (fun g hg => C02_unitary (h3 g hg)), inner_single n x2, e, norm_mul]
  rcases x1 with e | e <;> rw [e] <;> simp

theorem reference_coeff {n : ℕ} {H : Op} {C : Circuit} {R : ℕ} (hR : R < 2 ^ n) (h3 : ∀ g ∈ C, ApiGate g) (h4 : C.Fits n) :
    C.adjoint.op (H (C.op (Pi.single R 1))) R = inner n (C.op (Pi.single R 1)) (H (C.op (Pi.single R 1))) ∧
    ∑ I ∈ Finset.range (2 ^ n), ‖C.adjoint.op (H (C.op (Pi.single R 1))) I‖ ^ 2 = (inner n (H (C.op (Pi.single R 1))) (H (C.op (Pi.single R 1)))).re := by
  have hun := circuit_adjoint_op h3
  have e : C.op (C.adjoint.op (H (C.op (Pi.single R 1)))) = H (C.op (Pi.single R 1)) := by
    rw [← Module.End.mul_apply, hun.2, Module.End.one_apply]
  constructor
  · rw [← inner_single n hR (C.adjoint.op _), ← inner_circuit h4 (fun g hg => C02_unitary (h3 g hg)), e]
  · have h := inner_self_norm n (C.adjoint.op (H (C.op (Pi.single R 1))))
    rw [← inner_circuit h4 (fun g hg => C02_unitary (h3 g hg)), e] at h
    rw [h, Complex.ofReal_re]

/-- different particle-hole excitations make different determinants, and none makes the reference -/
theorem flip_inj {ref : List ℕ} {n R : ℕ} {x y : List ℕ × List ℕ} (hx : Excit n x.1 x.2) (hy : Excit n y.1 y.2) (px : ParticleHole ref x.1 x.2)
    (py : ParticleHole ref y.1 y.2) : (flipAll (x.1 ++ x.2) R = flipAll (y.1 ++ y.2) R → x = y) ∧ flipAll (x.1 ++ x.2) R ≠ R := by
  have nd : ∀ {z : List ℕ × List ℕ}, Excit n z.1 z.2 → ParticleHole ref z.1 z.2 → (z.1 ++ z.2).Nodup := fun {z} hz pz =>
    List.nodup_append.2 ⟨hz.desc_c.imp (fun h => (ne_of_lt h).symm), hz.desc_a.imp (fun h => (ne_of_lt h).symm),
      fun p hp q hq hpq => by subst hpq; have := pz.vir p hp; rw [pz.occ p hq] at this; simp at this⟩
  constructor
  · intro h
    have hm : ∀ p, p ∈ x.1 ++ x.2 ↔ p ∈ y.1 ++ y.2 := fun p => by
      have := congrArg (fun z => z.testBit p) h
      simp only [testBit_flipAll (nd hx px), testBit_flipAll (nd hy py)] at this
      by_cases h1 : p ∈ x.1 ++ x.2 <;> by_cases h2 : p ∈ y.1 ++ y.2 <;> simp [h1, h2] at this ⊢
    have h1 : x.1 = y.1 := by
      refine List.Perm.eq_of_pairwise (le := fun p q => q < p) (fun a b _ _ h h' => by omega) hx.desc_c hy.desc_c ?_
      refine (List.perm_ext_iff_of_nodup ((List.nodup_append.1 (nd hx px)).1) ((List.nodup_append.1 (nd hy py)).1)).2 fun p => ?_
      have := hm p
      rw [List.mem_append, List.mem_append] at this
      constructor
      · intro hp
        rcases this.1 (.inl hp) with h | h
        · exact h
        · have := px.vir p hp; rw [py.occ p h] at this; simp at this
      · intro hp
        rcases this.2 (.inl hp) with h | h
        · exact h
        · have := py.vir p hp; rw [px.occ p h] at this; simp at this
    have h2 : x.2 = y.2 := by
      refine List.Perm.eq_of_pairwise (le := fun p q => q < p) (fun a b _ _ h h' => by omega) hx.desc_a hy.desc_a ?_
      refine (List.perm_ext_iff_of_nodup ((List.nodup_append.1 (nd hx px)).2.1) ((List.nodup_append.1 (nd hy py)).2.1)).2 fun p => ?_
      have := hm p
      rw [List.mem_append, List.mem_append] at this
      constructor
      · intro hp
        rcases this.1 (.inr hp) with h | h
        · have := px.occ p hp; rw [py.vir p h] at this; simp at this
        · exact h
      · intro hp
        rcases this.2 (.inr hp) with h | h
        · have := py.occ p hp; rw [px.vir p h] at this; simp at this
        · exact h
    exact Prod.ext h1 h2
  · intro h
    obtain ⟨p, l, hp⟩ := List.exists_cons_of_ne_nil px.ne
    have := congrArg (fun z => z.testBit p) h
    simp only [testBit_flipAll (nd hx px)] at this
    rw [hp] at this
    simp at this

theorem RealOp.pow' {U : Op} (h : RealOp U) (k : ℕ) : RealOp (U ^ k) := by
  induction k with
  | zero => intro ψ; rfl
  | succ k ih => intro ψ; rw [pow_succ, Module.End.mul_apply, h ψ, ih (U ψ)]; rfl

theorem conjSt_single (R : ℕ) : conjSt (Pi.single R 1) = Pi.single R 1 := by
  funext I; by_cases hI : I = R
  · subst hI; simp [conjSt]
  · simp [conjSt, Pi.single_eq_of_ne hI]

theorem circuitResidual_real {n : ℕ} {q : Bool} {H : Op} {C : Circuit} {R : ℕ} (hC : RealOp C.op) (hH : RealOp H) (x : List ℕ × List ℕ) :
    (circuitResidual n q H C R x).im = 0 := by
  rw [← Complex.conj_eq_iff_im]
  unfold circuitResidual
  have hsing := conjSt_single R
  have hk : conjSt (kappa q x.1 x.2 (Pi.single R 1)) = kappa q x.1 x.2 (Pi.single R 1) := by
    obtain ⟨k, hK, _⟩ := kappa_skew q x.1 x.2
    funext I
    have := congrFun hsing (I ^^^ lmask (caList x.1 x.2))
    simp only [conjSt] at this ⊢
    rw [hK, map_mul, this, Complex.conj_ofReal]
  have r1 : conjSt (C.op (kappa q x.1 x.2 (Pi.single R 1))) = C.op (kappa q x.1 x.2 (Pi.single R 1)) := by
    rw [← hC, hk]
  have r2 : conjSt (H (C.op (Pi.single R 1))) = H (C.op (Pi.single R 1)) := by
    rw [← hH, ← hC, hsing]
  unfold inner
  rw [map_sum]
  refine Finset.sum_congr rfl fun I _ => ?_
  have a1 := congrFun r1 I
  have a2 := congrFun r2 I
  simp only [conjSt] at a1 a2
  rw [map_mul, a1, a1, a2]

theorem ansatz_real (o : DescSort) (so : SortOracle) (A : UccAlg) (xs : List (List ℕ × List ℕ)) (h : A.Selects xs) (hs : A.saSD = false)
    (hc : A.compact = false) (hN : 1 ≤ A.trotterNumber) (ts : List ℝ) :
    ∃ C, A.ansatzCircuit o so (some ts) = .ok C ∧ (∀ g ∈ C, ApiGate g ∧ ExactGate g) ∧ C.Fits A.nqb ∧ RealOp C.op := by
  obtain ⟨C, Ws, h1, h2, h3, h4, h5⟩ := C70_ansatz o so A xs h hs hc hN ts
  refine ⟨C, h1, h4, h5, ?_⟩
  rw [h3]
  refine RealOp.pow' (RealOp.applyInOrder ?_) _
  intro W hW
  obtain ⟨p, -, hp⟩ := f₂_right h2 hW
  unfold AnsatzFactor at hp
  have e : (1 / (A.trotterNumber : ℂ)) • (usedAmp p.2 p.1 : ℂ) • kappa A.qubitExc p.2.1 p.2.2 =
      ((usedAmp p.2 p.1 / A.trotterNumber : ℝ) : ℂ) • kappa A.qubitExc p.2.1 p.2.2 := by
    rw [smul_smul]; congr 1; push_cast; ring
  rw [e] at hp
  exact RealOp.flow (kappa_skew A.qubitExc p.2.1 p.2.2) hp

theorem pqe_reference {A : PqeAlg} {ys : List (List ℕ × List ℕ)} (hP : A.Pool ys) (hR : A.Ready) (h0 : A.computer = none) (hu : A.uprep = A.refprep) {R : ℕ}
    (hRef : IsRefDet A.ref R) : A.reference = Pi.single R 1 := by
  obtain ⟨C, idx, q, c1, c2, c3, c4, c5, c6, c7⟩ := C43_prepares A.ref hP.occ hP.ne A.nqb (by rw [hP.size])
  rw [hP.prep] at c1; cases c1
  have hidx : idx = R := Nat.eq_of_testBit_eq fun i => by rw [c7, hRef]
  subst hidx
  have e0 : A.initialComputer = Computer.init A.nqb := by unfold UccAlg.initialComputer; rw [h0]; rfl
  obtain ⟨q1, e1, w1, n1, p1⟩ := applyCircuit_exact (q := Computer.init A.nqb) A.uprep (Computer.WF.init _) hR.prep.1 hR.prep.2
  rw [hu, c3] at e1; cases e1
  rw [UccAlg.reference, e0, ← p1, c5]

theorem pool_excit {A : PqeAlg} {ys : List (List ℕ × List ℕ)} (hP : A.Pool ys) : ∀ x ∈ ys, Excit A.nqb x.1 x.2 ∧ ParticleHole A.ref x.1 x.2 := fun x hx => by
  obtain ⟨e, -, he⟩ := f₂_right hP.exc hx
  exact ⟨he.2.1, he.2.2.2⟩

/-- the sum of the squared residuals of different excitations is the weight of the determinants they make in `U† H U |R⟩` -/
theorem sum_residuals {ref : List ℕ} {n : ℕ} {q : Bool} {H : Op} {C : Circuit} {R : ℕ} (h3 : ∀ g ∈ C, ApiGate g) (h4 : C.Fits n) {ys : List (List ℕ × List ℕ)}
    (hn : ys.Nodup) (hx : ∀ x ∈ ys, Excit n x.1 x.2 ∧ ParticleHole ref x.1 x.2) {dets : List (ℕ × ℂ)} (hd : List.Forall₂ (Excites n q R) ys dets) :
    (ys.map fun x => ‖circuitResidual n q H C R x‖ ^ 2).sum = ∑ I ∈ (dets.map Prod.fst).toFinset, ‖C.adjoint.op (H (C.op (Pi.single R 1))) I‖ ^ 2 ∧
      (dets.map Prod.fst).toFinset ⊆ Finset.range (2 ^ n) ∧ R ∉ (dets.map Prod.fst).toFinset := by
  have hfst : dets.map Prod.fst = ys.map fun x => flipAll (x.1 ++ x.2) R := by
    clear hn hx
    induction hd with
    | nil => rfl
    | cons h _ ih => rw [List.map_cons, List.map_cons, ih, h.2.2.1]
  have hnd : (dets.map Prod.fst).Nodup := by
    rw [hfst]
    exact List.Nodup.map_on (fun x h y h' e => (flip_inj (hx x h).1 (hx y h').1 (hx x h).2 (hx y h').2).1 e) hn
  refine ⟨?_, ?_, ?_⟩
  · rw [List.sum_toFinset _ hnd, List.map_map]
    congr 1
    clear hn hx hnd hfst
    induction hd with
    | nil => rfl
    | cons h _ ih => rw [List.map_cons, List.map_cons, ih, circuitResidual_eq h3 h4 h]; rfl
  · intro I hI
    obtain ⟨d, hd', rfl⟩ := List.mem_map.1 (List.mem_toFinset.1 hI)
    obtain ⟨x, -, hx'⟩ := f₂_right hd hd'
    exact Finset.mem_range.2 hx'.2.1
  · intro h
    rw [List.mem_toFinset, hfst] at h
    obtain ⟨x, hx', e⟩ := List.mem_map.1 h
    exact (flip_inj (hx x hx').1 (hx x hx').1 (hx x hx').2 (hx x hx').2).2 e

/-- C112: `get_sum_residual_square(t)`.  Let `ψ` be the state that the ansatz circuit of the amplitudes `t` makes from the reference determinant.  If the residuals are real the value is
the sum of their squared moduli; it is never negative, zero exactly if all residuals vanish, and at most the variance of the Hamiltonian in `ψ`.  If a residual is not real,
`ValueError` is raised.  Every number of Trotter steps is allowed. -/
theorem C112_objective (o : DescSort) (so : SortOracle) (A : PqeAlg) (xs ys : List (List ℕ × List ℕ)) (h : A.Selects xs) (hP : A.Pool ys) (hs : A.saSD = false)
    (hc : A.compact = false) (hN : 1 ≤ A.trotterNumber) (hR : A.Ready) (h0 : A.computer = none) (hu : A.uprep = A.refprep) (R : ℕ) (hRef : IsRefDet A.ref R) (ts : List ℝ) :
    ∃ C dets, A.ansatzCircuit o so (some ts) = .ok C ∧ A.fillExcitedDets o = .ok dets ∧ inner A.nqb (C.op (Pi.single R 1)) (C.op (Pi.single R 1)) = 1 ∧
      ((∀ x ∈ ys, (circuitResidual A.nqb A.qubitExc A.ham.op C R x).im = 0) → ∃ f, A.sumResidualSquare o so dets ts = .ok f ∧
        f = (ys.map fun x => ‖circuitResidual A.nqb A.qubitExc A.ham.op C R x‖ ^ 2).sum ∧ 0 ≤ f ∧
        (f = 0 ↔ ∀ x ∈ ys, circuitResidual A.nqb A.qubitExc A.ham.op C R x = 0) ∧
        (ys.Nodup → HermitianOn A.nqb A.ham.op → f ≤ variance A.nqb A.ham.op (C.op (Pi.single R 1)))) ∧
      ((∃ x ∈ ys, (circuitResidual A.nqb A.qubitExc A.ham.op C R x).im ≠ 0) → A.sumResidualSquare o so dets ts = .error .valueError) ∧
      ((∀ t ∈ A.ham, t.1.im = 0 ∧ t.2.PauliString A.nqb ∧ Even t.2.numY) → ∀ x ∈ ys, (circuitResidual A.nqb A.qubitExc A.ham.op C R x).im = 0) := by
  classical
  obtain ⟨C, c1, c2, c3, c4⟩ := ansatz_real o so A.toUccAlg xs h hs hc hN ts
  obtain ⟨dets, d1, d2⟩ := C73_excited_dets o A ys hP R hRef
  have hlt : R < 2 ^ A.nqb := by rw [← hP.size]; exact refDet_lt hRef
  have key := residual_circuit o so hs c1 c2 c3 hR h0 (pqe_reference hP hR h0 hu hRef) d2
  have hg := mapM_guard (fun r : ℂ => r.im ≠ 0) (ys.map (circuitResidual A.nqb A.qubitExc A.ham.op C R)) (e := .valueError)
  refine ⟨C, dets, c1, d1, ?_, ?_, ?_, fun hH x _ => circuitResidual_real c4 (realOp_of_even hH) x⟩
  · rw [inner_circuit c3 (fun g hg => C02_unitary (c2 g hg).1), inner_det_self hlt]
  · intro him
    have hval : A.sumResidualSquare o so dets ts = .ok (ys.map fun x => ‖circuitResidual A.nqb A.qubitExc A.ham.op C R x‖ ^ 2).sum := by
      unfold PqeAlg.sumResidualSquare
      rcases hg with ⟨-, e⟩ | ⟨⟨r, hr, hne⟩, -⟩
      · rw [key, e, except_ok_bind, List.map_map]; rfl
      · obtain ⟨x, hx, rfl⟩ := List.mem_map.1 hr
        exact absurd (him x hx) hne
    refine ⟨_, hval, rfl, List.sum_nonneg ?_, ?_, fun hn hH => ?_⟩
    · intro z hz
      obtain ⟨x, -, rfl⟩ := List.mem_map.1 hz
      positivity
    · clear him hval hg key d1 d2 hP
      induction ys with
      | nil => simp
      | cons x ys ih =>
        rw [List.map_cons, List.sum_cons, add_eq_zero_iff_of_nonneg (by positivity) (List.sum_nonneg fun z hz => by
          obtain ⟨x, -, rfl⟩ := List.mem_map.1 hz
          positivity), ih]
        simp
    · obtain ⟨s1, s2, s3⟩ := sum_residuals (H := A.ham.op) (fun g hg => (c2 g hg).1) c3 hn (pool_excit hP) d2
      obtain ⟨t1, t2⟩ := reference_coeff (H := A.ham.op) hlt (fun g hg => (c2 g hg).1) c3
      have hre : ‖C.adjoint.op (A.ham.op (C.op (Pi.single R 1))) R‖ ^ 2 = energy A.nqb A.ham.op (C.op (Pi.single R 1)) ^ 2 := by
        rw [t1]
        have him : (inner A.nqb (C.op (Pi.single R 1)) (A.ham.op (C.op (Pi.single R 1)))).im = 0 := by
          rw [← Complex.conj_eq_iff_im, inner_conj, hH]
        rw [← Complex.normSq_eq_norm_sq, Complex.normSq_apply, him, energy]; ring
      have hle : ∑ I ∈ insert R (dets.map Prod.fst).toFinset, ‖C.adjoint.op (A.ham.op (C.op (Pi.single R 1))) I‖ ^ 2 ≤
          ∑ I ∈ Finset.range (2 ^ A.nqb), ‖C.adjoint.op (A.ham.op (C.op (Pi.single R 1))) I‖ ^ 2 :=
        Finset.sum_le_sum_of_subset_of_nonneg (Finset.insert_subset (Finset.mem_range.2 hlt) s2) fun I _ _ => by positivity
      rw [Finset.sum_insert s3, t2, hre, ← s1] at hle
      unfold variance
      linarith
  · rintro ⟨x, hx, hne⟩
    unfold PqeAlg.sumResidualSquare
    rcases hg with ⟨hh, -⟩ | ⟨-, e⟩
    · exact absurd hne (hh _ (List.mem_map.2 ⟨x, hx, rfl⟩))
    · rw [key, e]; rfl

/-- C112: if the state is an eigenstate of the Hamiltonian, all residuals vanish.  Conversely, if they vanish and the Hamiltonian leads from the state only to the states
`U|I⟩` of the reference and of the determinants the excitations make, it is an eigenstate. -/
theorem C112_eigenstate (o : DescSort) (so : SortOracle) (A : PqeAlg) (xs ys : List (List ℕ × List ℕ)) (h : A.Selects xs) (hP : A.Pool ys) (hs : A.saSD = false)
    (hc : A.compact = false) (hN : 1 ≤ A.trotterNumber) (hR : A.Ready) (h0 : A.computer = none) (hu : A.uprep = A.refprep) (R : ℕ) (hRef : IsRefDet A.ref R) (ts : List ℝ) :
    ∃ C dets, A.ansatzCircuit o so (some ts) = .ok C ∧ A.fillExcitedDets o = .ok dets ∧
      (∀ lam : ℂ, A.ham.op (C.op (Pi.single R 1)) = lam • C.op (Pi.single R 1) → A.sumResidualSquare o so dets ts = .ok 0) ∧
      (A.sumResidualSquare o so dets ts = .ok 0 →
        (∃ c : ℕ → ℂ, A.ham.op (C.op (Pi.single R 1)) = ∑ I ∈ insert R (dets.map Prod.fst).toFinset, c I • C.op (Pi.single I 1)) →
        ∃ lam : ℂ, A.ham.op (C.op (Pi.single R 1)) = lam • C.op (Pi.single R 1)) := by
  classical
  obtain ⟨C, c1, c2, c3, c4⟩ := ansatz_real o so A.toUccAlg xs h hs hc hN ts
  obtain ⟨dets, d1, d2⟩ := C73_excited_dets o A ys hP R hRef
  have hlt : R < 2 ^ A.nqb := by rw [← hP.size]; exact refDet_lt hRef
  have hx := pool_excit hP
  have hC := fun g hg => (c2 g hg).1
  have key := residual_circuit o so hs c1 c2 c3 hR h0 (pqe_reference hP hR h0 hu hRef) d2
  obtain ⟨C', dets', e1, e2, -, e4, e5, -⟩ := C112_objective o so A xs ys h hP hs hc hN hR h0 hu R hRef ts
  rw [c1] at e1; cases e1
  rw [d1] at e2; cases e2
  refine ⟨C, dets, c1, d1, fun lam hl => ?_, fun hz => ?_⟩
  · have hzero : ∀ x ∈ ys, circuitResidual A.nqb A.qubitExc A.ham.op C R x = 0 := by
      intro x hx'
      obtain ⟨d, -, hd⟩ := f₂_left d2 hx'
      rw [← norm_eq_zero, circuitResidual_eq hC c3 hd, hl, map_smul, ← Module.End.mul_apply, (circuit_adjoint_op hC).1, Module.End.one_apply, Pi.smul_apply,
        Pi.single_eq_of_ne (by rw [hd.2.2.1]; exact (flip_inj (hx x hx').1 (hx x hx').1 (hx x hx').2 (hx x hx').2).2)]
      simp
    obtain ⟨f, f1, -, -, f4, -⟩ := e4 fun x hx' => by rw [hzero x hx']; rfl
    rw [f1, f4.2 hzero]
  · rintro ⟨c, hcs⟩
    have him : ∀ x ∈ ys, (circuitResidual A.nqb A.qubitExc A.ham.op C R x).im = 0 := by
      by_contra hne
      push Not at hne
      obtain ⟨x, hx', hne⟩ := hne
      rw [e5 ⟨x, hx', hne⟩] at hz; cases hz
    obtain ⟨f, f1, -, -, f4, -⟩ := e4 him
    rw [hz] at f1
    have hall := f4.1 (Except.ok.inj f1).symm
    have hχ : C.adjoint.op (A.ham.op (C.op (Pi.single R 1))) = ∑ I ∈ insert R (dets.map Prod.fst).toFinset, c I • (Pi.single I 1 : St) := by
      rw [hcs, map_sum]
      refine Finset.sum_congr rfl fun I _ => ?_
      rw [map_smul, ← Module.End.mul_apply, (circuit_adjoint_op hC).1, Module.End.one_apply]
    have hcI : ∀ J ∈ insert R (dets.map Prod.fst).toFinset, C.adjoint.op (A.ham.op (C.op (Pi.single R 1))) J = c J := by
      intro J hJ
      rw [hχ, Finset.sum_apply, Finset.sum_eq_single J]
      · simp
      · intro I _ hI; simp [Pi.single_eq_of_ne (Ne.symm hI)]
      · intro hn; exact absurd hJ hn
    refine ⟨c R, ?_⟩
    rw [hcs]
    rw [Finset.sum_eq_single_of_mem R (Finset.mem_insert_self _ _)]
    intro I hI hne
    rcases Finset.mem_insert.1 hI with e | hI'
    · exact absurd e hne
    · obtain ⟨d, hd', rfl⟩ := List.mem_map.1 (List.mem_toFinset.1 hI')
      obtain ⟨x, hx', hxd⟩ := f₂_right d2 hd'
      have hz' : ‖circuitResidual A.nqb A.qubitExc A.ham.op C R x‖ = 0 := by rw [hall x hx', norm_zero]
      rw [circuitResidual_eq hC c3 hxd, hcI _ hI, norm_eq_zero] at hz'
      rw [hz', zero_smul]

/-- the optimizers of scipy that `UCCNPQE` accepts -/
def scipyPqe : List String := ["nelder-mead", "powell", "bfgs", "l-bfgs-b", "cg", "slsqp"]

/-- the optimizer returns amplitudes whose objective is not above that of the amplitudes it started from -/
def NotWorse (o : DescSort) (so : SortOracle) (X : UccRunExt) : Prop := ∀ B dets x f0 f, X.minimizeRes B dets = .ok x → B.sumResidualSquare o so dets B.tamps = .ok f0 →
  B.sumResidualSquare o so dets x = .ok f → f ≤ f0

theorem zero_amps (o : DescSort) (so : SortOracle) (A : UccAlg) (xs : List (List ℕ × List ℕ)) (h : A.Selects xs) (hs : A.saSD = false)
    (hc : A.compact = false) (hN : 1 ≤ A.trotterNumber) (m : ℕ) : ∃ C, A.ansatzCircuit o so (some (List.replicate m 0)) = .ok C ∧ C.op = 1 := by
  obtain ⟨C, Ws, h1, h2, h3, h4, h5⟩ := C70_ansatz o so A xs h hs hc hN (List.replicate m 0)
  refine ⟨C, h1, ?_⟩
  have hW : ∀ W ∈ Ws, W = 1 := by
    intro W hW
    obtain ⟨p, hp, e⟩ := f₂_right h2 hW
    have hp0 : p.1 = 0 := List.eq_of_mem_replicate (List.of_mem_zip (a := p.1) (b := p.2) hp).1
    unfold AnsatzFactor usedAmp at e
    rw [hp0] at e
    refine IsExp.unique e ?_
    simp [isExp_zero]
  rw [h3]
  have : applyInOrder Ws = 1 := by
    clear h2 h3
    induction Ws with
    | nil => rfl
    | cons W Ws ih =>
      show applyInOrder Ws * W = 1
      rw [hW W (by simp), ih fun V hV => hW V (by simp [hV])]; simp
  rw [this, one_pow]

/-- C112: a run of `UCCNPQE` with an optimizer of scipy, for a Hamiltonian with a real matrix.  The final amplitudes are what the optimizer returned when started at amplitude zero; the
reported energy is the expectation value in the normalised state `ψ` of these amplitudes; the objective there is the sum of the squared residuals of `ψ`, at most the variance of
the Hamiltonian in `ψ`, and, if the optimizer does not go up, at most the sum of the squared couplings of the reference determinant to the excited ones.  If it is zero, all residuals
of `ψ` vanish. -/
theorem C112_run (N : NextPerm) (o : DescSort) (so : SortOracle) (fuel : ℕ) (X : UccRunExt) (hX : ReportsRes X) (O : UccRunOpts) (cls : AlgClass) (S : QSystem) (a : AlgArgs)
    (A : AlgObj) (h : ansatzInit cls S a = .ok A) (hs : ArgsSound S a A.nqb) (hc : a.compact = false) (hN : 1 ≤ a.trotterNumber) (t : PoolArg)
    (hf : Option (List ℝ)) (keys : List (List ℕ × List ℕ)) (hk : ∀ x ∈ keys, Excit A.nqb x.1 x.2 ∧ x.1.length ≤ 19 ∧ ParticleHole A.ref x.1 x.2)
    (hO : Occ A.ref) (h0 : A.ref ≠ []) (h64 : A.nqb ≤ 64) (R : ℕ) (hR : IsRefDet A.ref R) (hnd : keys.Nodup)
    (hH : ∀ t ∈ A.ham, t.1.im = 0 ∧ t.2.PauliString A.nqb ∧ Even t.2.numY)
    (hstart : startAnsatz N o fuel A a t = .ok (A.startOf a keys)) (hopt : pyLower O.optimizer ∈ scipyPqe) (U : PqeAlg) (dets : List (ℕ × ℂ)) (E : ℝ) (c : ℤ)
    (hrun : uccnpqeRun N o so none fuel X O A a t hf = .ok (U, dets, E, c)) :
    X.minimizeRes (A.pqe (A.startOf a keys)) dets = .ok U.tamps ∧ (A.startOf a keys).tamps = List.replicate keys.length 0 ∧
    ∃ C f, U.ansatzCircuit o so none = .ok C ∧ inner A.nqb (C.op (Pi.single R 1)) (C.op (Pi.single R 1)) = 1 ∧ E = energy A.nqb A.ham.op (C.op (Pi.single R 1)) ∧
      U.sumResidualSquare o so dets U.tamps = .ok f ∧ f = (keys.map fun x => ‖circuitResidual A.nqb a.qubitExc A.ham.op C R x‖ ^ 2).sum ∧
      f ≤ variance A.nqb A.ham.op (C.op (Pi.single R 1)) ∧
      (NotWorse o so X → f ≤ (keys.map fun x => ‖inner A.nqb (kappa a.qubitExc x.1 x.2 (Pi.single R 1)) (A.ham.op (Pi.single R 1))‖ ^ 2).sum) ∧
      (f = 0 ↔ ∀ x ∈ keys, circuitResidual A.nqb a.qubitExc A.ham.op C R x = 0) := by
  obtain ⟨g1, g2, g3, C, g4, -, g6, -, g8, -⟩ := C97_pqe N o so fuel X hX O cls S a A h hs hc hN t hf keys hk hO h0 h64 R hR hstart U dets E c hrun
  have hp : a.statePrep = "occupation_list" := by
    by_contra hp
    rw [C97_pqe_state_prep N o so none fuel X O A a t hf hp] at hrun; cases hrun
  have hmin : X.minimizeRes (A.pqe (A.startOf a keys)) dets = .ok U.tamps := by
    unfold uccnpqeRun at hrun
    rw [if_neg (not_not.2 hp), hstart, except_ok_bind] at hrun
    obtain ⟨dets', h1, hrun⟩ := bindOk hrun
    obtain ⟨orbE, h2, hrun⟩ := bindOk hrun
    obtain ⟨⟨x, e⟩, h3, hrun⟩ := bindOk hrun
    obtain ⟨C', h4, hrun⟩ := bindOk hrun
    cases hrun
    unfold pqeSolve at h3
    have hj : pyLower O.optimizer ≠ "jacobi" := by
      intro hj; rw [hj] at hopt; revert hopt; decide
    rw [if_neg hj, if_pos (show pyLower O.optimizer ∈ ["nelder-mead", "powell", "bfgs", "l-bfgs-b", "cg", "slsqp"] from hopt)] at h3
    obtain ⟨e0, -, h3⟩ := bindOk h3
    obtain ⟨x', h5, h3⟩ := bindOk h3
    obtain ⟨e', -, h3⟩ := bindOk h3
    cases h3
    exact h5
  have hk' : ∀ x ∈ keys, Excit A.nqb x.1 x.2 ∧ x.1.length ≤ 19 := fun x hx => ⟨(hk x hx).1, (hk x hx).2.1⟩
  have hcomp := pqe_computer h hp
  have ht0 : (A.startOf a keys).tamps = List.replicate keys.length 0 := by simp [AlgObj.startOf]
  refine ⟨hmin, ht0, C, ?_⟩
  have obj := fun ts => C112_objective o so (A.pqe (A.startOf a keys)) keys keys (startOf_selects a hk') (pqePool h hO h0 h64 hk _) rfl hc hN
    (startOf_ready h hs keys _) hcomp.1 hcomp.2 R hR ts
  obtain ⟨C1, dets1, o1, o2, -, o4, -, o6⟩ := obj U.tamps
  obtain ⟨dets'', d1, -⟩ := C73_excited_dets o (A.pqe (A.startOf a keys)) keys (pqePool h hO h0 h64 hk _) R hR
  have hdets : dets1 = dets := by
    have : A.pqe (A.startOf a keys) = { A.pqe (A.startOf a keys) with tamps := (A.startOf a keys).tamps } := rfl
    unfold uccnpqeRun at hrun
    rw [if_neg (not_not.2 hp), hstart, except_ok_bind] at hrun
    obtain ⟨dets', h1, hrun⟩ := bindOk hrun
    obtain ⟨orbE, h2, hrun⟩ := bindOk hrun
    obtain ⟨⟨x, e⟩, h3, hrun⟩ := bindOk hrun
    obtain ⟨C', h4, hrun⟩ := bindOk hrun
    cases hrun
    rw [h1] at o2
    exact (Except.ok.inj o2).symm
  subst hdets
  have hCC : C1 = C := by
    rw [g1] at g4
    exact Except.ok.inj (o1.symm.trans g4)
  subst hCC
  obtain ⟨f, f1, f2, f3, f4, f5⟩ := o4 (o6 hH)
  have hUf : U.sumResidualSquare o so dets1 U.tamps = .ok f := by
    rw [g1]; exact f1
  refine ⟨f, g4, g8, g6, hUf, f2, f5 hnd (hermitian_of_real fun t ht => ⟨(hH t ht).1, (hH t ht).2.1⟩), fun hnw => ?_, f4⟩
  obtain ⟨C0, dets0, z1, z2, -, z4, -, z6⟩ := obj (A.startOf a keys).tamps
  rw [o2] at z2; cases z2
  obtain ⟨f0, y1, y2, -, -, -⟩ := z4 (z6 hH)
  refine le_trans (hnw _ _ _ _ _ hmin y1 f1) (le_of_eq ?_)
  obtain ⟨C0', w1, w2⟩ := zero_amps o so (A.startOf a keys) keys (startOf_selects a hk') rfl hc hN keys.length
  rw [← ht0] at w1
  have : C0 = C0' := Except.ok.inj (z1.symm.trans w1)
  subst this
  rw [y2]
  unfold circuitResidual
  rw [w2]
  rfl

/-- C112: such a run returns, whenever the optimizer does and the orbital energies are known. -/
theorem C112_returns (N : NextPerm) (o : DescSort) (so : SortOracle) (fuel : ℕ) (X : UccRunExt) (O : UccRunOpts) (cls : AlgClass) (S : QSystem) (a : AlgArgs)
    (A : AlgObj) (h : ansatzInit cls S a = .ok A) (hs : ArgsSound S a A.nqb) (hp : a.statePrep = "occupation_list") (hc : a.compact = false) (hN : 1 ≤ a.trotterNumber) (t : PoolArg)
    (l : List ℝ) (keys : List (List ℕ × List ℕ)) (hk : ∀ x ∈ keys, Excit A.nqb x.1 x.2 ∧ x.1.length ≤ 19 ∧ ParticleHole A.ref x.1 x.2)
    (hO : Occ A.ref) (h0 : A.ref ≠ []) (h64 : A.nqb ≤ 64) (R : ℕ) (hR : IsRefDet A.ref R)
    (hstart : startAnsatz N o fuel A a t = .ok (A.startOf a keys)) (hopt : pyLower O.optimizer ∈ scipyPqe)
    (hret : ∀ B dets, ∃ x, X.minimizeRes B dets = .ok x) : ∃ U dets E c, uccnpqeRun N o so none fuel X O A a t (some l) = .ok (U, dets, E, c) := by
  have hk' : ∀ x ∈ keys, Excit A.nqb x.1 x.2 ∧ x.1.length ≤ 19 := fun x hx => ⟨(hk x hx).1, (hk x hx).2.1⟩
  obtain ⟨dets, d1, -⟩ := C73_excited_dets o (A.pqe (A.startOf a keys)) keys (pqePool h hO h0 h64 hk _) R hR
  obtain ⟨x, hx⟩ := hret (A.pqe (A.startOf a keys)) dets
  have st := fun ts => exc_state o so { A.startOf a keys with tamps := x } keys (startOf_selects a hk') rfl hc hN (startOf_ready h hs keys x) ts
  obtain ⟨C0, -, -, s3, -⟩ := st (A.startOf a keys).tamps
  obtain ⟨C1, -, t2, t3, -⟩ := st x
  have hj : pyLower O.optimizer ≠ "jacobi" := by
    intro hj; rw [hj] at hopt; revert hopt; decide
  have e1 : (A.pqe (A.startOf a keys)).energyFeval o so none (A.pqe (A.startOf a keys)).tamps = .ok _ := s3
  have e2 : (A.pqe (A.startOf a keys)).energyFeval o so none x = .ok _ := t3
  have e3 : ({ A.pqe (A.startOf a keys) with tamps := x } : PqeAlg).buildUvqc o so none = .ok _ := t2
  unfold uccnpqeRun
  rw [if_neg (not_not.2 hp), hstart, except_ok_bind]
  simp only [d1, except_ok_bind]
  unfold AlgObj.orbE Moments.buildOrbEnergies pqeSolve
  simp only [except_ok_bind, pure, Except.pure, if_neg hj, if_pos (show pyLower O.optimizer ∈ ["nelder-mead", "powell", "bfgs", "l-bfgs-b", "cg", "slsqp"] from hopt), e1, hx, e2, e3]
  exact ⟨_, _, _, _, rfl⟩

theorem holes_nodup {n R : ℕ} (hR : R < 2 ^ n) (p : ℕ → Bool) : (((List.range (2 ^ n)).filter p).map (fun d => (holes n d R, holes n R d))).Nodup := by
  refine List.Nodup.map_on (fun d hd d' hd' e => ?_) (List.nodup_range.filter _)
  have h1 := Spqe.flip_target hR (List.mem_range.1 (List.mem_filter.1 hd).1)
  have h2 := Spqe.flip_target hR (List.mem_range.1 (List.mem_filter.1 hd').1)
  rw [Prod.mk.injEq] at e
  rw [← h1, ← h2, e.1, e.2]

/-- C112: the hypotheses are met: for the four-qubit system with the Hamiltonian `Z₃ + X₀ X₂` and the "SD" pool, whose excitations are different and contain the double excitation, the run
of `UCCNPQE` with an optimizer that returns its starting point returns. -/
theorem C112_example (N : NextPerm) (o : DescSort) (so : SortOracle) : ∃ A, ansatzInit .uccnpqe fourQubits {} = .ok A ∧ ArgsSound fourQubits {} A.nqb ∧ A.nqb = 4 ∧
    Occ A.ref ∧ A.ref ≠ [] ∧ IsRefDet A.ref 3 ∧ (∀ t ∈ A.ham, t.1.im = 0 ∧ t.2.PauliString A.nqb ∧ Even t.2.numY) ∧
    ∃ keys, ([3, 2], [1, 0]) ∈ keys ∧ keys.Nodup ∧ (∀ x ∈ keys, Excit A.nqb x.1 x.2 ∧ x.1.length ≤ 19 ∧ ParticleHole A.ref x.1 x.2) ∧
      ∃ fuel, startAnsatz N o fuel A {} (.name "SD") = .ok (A.startOf {} keys) ∧ ∃ X, NotWorse o so X ∧ ReportsRes X ∧ pyLower "BFGS" ∈ scipyPqe ∧
        ∃ U dets E c, uccnpqeRun N o so none fuel X { optimizer := "BFGS", optMaxiter := 10, optThresh := 1e-6, diisMaxDim := 8 } A {} (.name "SD") (some [-1, 1]) =
          .ok (U, dets, E, c) := by
  obtain ⟨A, hA⟩ := (C96_ansatz .uccnpqe fourQubits {} (by simp) fourQubits_pauli (by simp)).2
    ⟨(C96_accepts .uccnpqe fourQubits {}).2 ⟨[1, 1, 0, 0], .hf rfl rfl rfl, rfl, fun h => by simp at h⟩, by simp, by simp⟩
  have hr : A.ref = [1, 1, 0, 0] ∧ A.sys = fourQubits := by
    obtain ⟨A0, e0, e1, _⟩ := ansatz_base hA
    have : A0.ref = [1, 1, 0, 0] := by
      cases (C96_object _ _ _ A0 e0).1.1 with
      | hf _ _ h => exact (Option.some.inj h).symm
      | occupation _ h => cases h
      | circuit _ h _ _ => exact absurd h (by decide)
      | computer _ h _ _ _ _ _ => exact absurd h (by decide)
    rw [e1]
    exact ⟨this, (C96_object _ _ _ A0 e0).2.2.1⟩
  have hs : ArgsSound fourQubits {} A.nqb :=
    ⟨fourQubits_pauli, fun C h => absurd h (by decide), (fun q h => nomatch h), (fun v ops eigs scales h => nomatch h)⟩
  have hn : A.nqb = A.ref.length := (C96_ready _ _ _ A hA hs (.name "SD") {} [] []).2.1
  have hn4 : A.nqb = 4 := by rw [hn, hr.1]; rfl
  have hO : Occ A.ref := by rw [hr.1]; intro x hx; simp at hx; omega
  have hne : A.ref ≠ [] := by rw [hr.1]; simp
  have hR : IsRefDet A.ref 3 := by
    rw [hr.1]
    intro i
    rcases i with _ | _ | _ | _ | i
    · decide
    · decide
    · decide
    · decide
    · rw [Nat.testBit_lt_two_pow (lt_of_lt_of_le (by norm_num : 3 < 2 ^ 4) (Nat.pow_le_pow_right (by norm_num) (by omega)))]
      simp
  have hirr : A.irreps = [0, 0] := by
    unfold AlgObj.irreps
    rw [hr.1, hr.2]
    rfl
  obtain ⟨keys, ⟨fuel, hstart⟩, hkeys, hk⟩ := C97_particle_hole N o A {} 2 (by rw [hr.1]; rfl) (by omega) hO (by
      rw [hr.1]
      intro i hi
      rw [List.getD_eq_default]
      show 4 ≤ i
      omega) hn (by rw [hirr]; rfl) 3 hR "SD" 2 (by simp [poolRanks])
  have hk' : ∀ x ∈ keys, Excit A.nqb x.1 x.2 ∧ x.1.length ≤ 19 ∧ ParticleHole A.ref x.1 x.2 := fun x hx => ⟨(hk x hx).1, by have := (hk x hx).2.1; omega, (hk x hx).2.2.1⟩
  have hham : A.ham = fourQubits.hamiltonian := by
    obtain ⟨A0, e0, -, -, hh⟩ := ansatz_base hA
    rcases hh with ⟨-, e1, -⟩ | ⟨v, ops, eigs, scales, hv, -⟩
    · rw [e1]; exact (C96_object _ _ _ A0 e0).2.2.2.2.1
    · cases hv
  refine ⟨A, hA, hs, hn4, hO, hne, hR, ?_, keys, ?_, ?_, hk', fuel, hstart fuel le_rfl, ⟨fun B => .error .exception, fun B _ => .ok B.tamps, fun _ _ => []⟩, ?_, ?_, by decide, ?_⟩
  · rw [hham, hn4]
    intro t ht
    simp only [fourQubits, List.mem_cons, List.not_mem_nil, or_false] at ht
    rcases ht with rfl | rfl <;> refine ⟨by norm_num, ⟨?_, ?_, ?_⟩, ?_⟩
    · intro g hg
      simp only [List.mem_cons, List.not_mem_nil, or_false] at hg
      subst hg; exact pauliGate_Z _
    · simp [gZ]
    · intro g hg
      simp only [List.mem_cons, List.not_mem_nil, or_false] at hg
      subst hg; simp [gZ]
    · decide
    · intro g hg
      simp only [List.mem_cons, List.not_mem_nil, or_false] at hg
      rcases hg with rfl | rfl <;> exact pauliGate_X _
    · simp [gX]
    · intro g hg
      simp only [List.mem_cons, List.not_mem_nil, or_false] at hg
      rcases hg with rfl | rfl <;> simp [gX]
    · decide
  · rw [hkeys, hirr]
    refine List.mem_map.2 ⟨12, List.mem_filter.2 ⟨by decide, decide_eq_true ⟨by decide, by decide, ⟨by decide, by decide⟩, by decide, by decide, by decide⟩⟩, by decide⟩
  · rw [hkeys]; exact holes_nodup (by norm_num) _
  · intro B dets x f0 f h1 h2 h3
    cases h1
    rw [h2] at h3; cases h3; exact le_rfl
  · intro B dets x h
    cases h; rfl
  · exact C112_returns N o so fuel _ _ _ _ _ A hA hs rfl rfl (by decide) _ _ keys hk' hO hne (by omega) 3 hR (hstart fuel le_rfl) (by decide) fun B _ => ⟨_, rfl⟩

end QF
