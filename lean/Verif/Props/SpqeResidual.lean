import Verif.Props.SpqePool
import Verif.Props.AdaptTotal

/-!
C87: the residual vector of SPQE.
-/
namespace QF

open SQOperator (DescSort)
open QubitOperator (SortOracle)
open SQOpPool

namespace Spqe

/-- the object `run` works with: an occupation-list reference on `2k ≤ 64` spin orbitals, its preparation circuit, the pool made from the determinants `dets` and the
dictionary of their positions, an ansatz made of pool operators -/
structure Sound (A : PqeAlg) (d : List (ℕ × ℕ)) (k R : ℕ) (dets : List ℕ) : Prop where
  size : A.nqb = 2 * k
  pos : 0 < k
  small : k ≤ 32
  occ : Occ A.ref
  len : A.ref.length = 2 * k
  isRef : IsRefDet A.ref R
  prep : buildRefprep A.ref = .ok A.refprep
  target : ∀ I ∈ dets, I < 2 ^ (2 * k) ∧ I ≠ R ∧ SameSpin k R I ∧ (holes (2 * k) R I).length ≤ 19
  nodup : dets.Nodup
  pool : A.pool = dets.map fun I => (0, excTerms (holes (2 * k) I R) (holes (2 * k) R I))
  dict : d = dets.zipIdx
  plain : A.saSD = false
  mem : ∀ m ∈ A.tops, m < dets.length

theorem lookup_zipIdx (l : List ℕ) (s m : ℕ) : ((l.zipIdx s).map Prod.swap).lookup (s + m) = l[m]? := by
  induction l generalizing s m with
  | nil => simp
  | cons x l ih =>
    rw [List.zipIdx_cons, List.map_cons]
    simp only [Prod.swap, List.lookup_cons]
    cases m with
    | zero => simp
    | succ m =>
      have hne : (s + (m + 1) == s) = false := by rw [beq_eq_false_iff_ne]; omega
      rw [hne, show s + (m + 1) = s + 1 + m by omega]
      simp only [List.getElem?_cons_succ]
      exact ih (s + 1) m

theorem lookup_idx (l : List ℕ) (hn : l.Nodup) (s m : ℕ) (hm : m < l.length) : (l.zipIdx s).lookup l[m] = some (s + m) := by
  induction l generalizing s m with
  | nil => simp at hm
  | cons x l ih =>
    rw [List.zipIdx_cons, List.lookup_cons]
    cases m with
    | zero => simp
    | succ m =>
      have hm' : m < l.length := by simpa using hm
      have hx : l[m] ≠ x := fun e => (List.nodup_cons.1 hn).1 (e ▸ List.getElem_mem hm')
      have hne : ((x :: l)[m + 1] == x) = false := by rw [beq_eq_false_iff_ne]; simpa using hx
      rw [hne]
      simp only [List.getElem_cons_succ]
      rw [ih (List.nodup_cons.1 hn).2 (s + 1) m hm']
      congr 1; omega

variable {A : PqeAlg} {d : List (ℕ × ℕ)} {k R : ℕ} {dets : List ℕ}

/-- the determinant of pool operator `m` -/
theorem Sound.coeffIdx (h : Sound A d k R dets) {m : ℕ} (hm : m < dets.length) : dictGet (toCoeff d) m = .ok dets[m] := by
  unfold dictGet toCoeff
  rw [h.dict]
  have := lookup_zipIdx dets 0 m
  rw [zero_add, List.getElem?_eq_getElem hm] at this
  rw [this]

theorem Sound.poolIdx (h : Sound A d k R dets) {m : ℕ} (hm : m < dets.length) : dictGet d dets[m] = .ok m := by
  unfold dictGet
  rw [h.dict, lookup_idx dets h.nodup 0 m hm, zero_add]

theorem Sound.refLt (h : Sound A d k R dets) : R < 2 ^ (2 * k) := by rw [← h.len]; exact isRefDet_lt h.isRef

theorem Sound.poolGet (h : Sound A d k R dets) {m : ℕ} (hm : m < dets.length) :
    A.pool[m]? = some (0, excTerms (holes (2 * k) dets[m] R) (holes (2 * k) R dets[m])) := by
  rw [h.pool, List.getElem?_map, List.getElem?_eq_getElem hm]; rfl

theorem Sound.excit (h : Sound A d k R dets) {I : ℕ} (hI : I ∈ dets) : Excit (2 * k) (holes (2 * k) I R) (holes (2 * k) R I) ∧ 0 < (holes (2 * k) I R).length ∧
    (holes (2 * k) I R).length ≤ 19 := by
  obtain ⟨h1, h2, h3, h4⟩ := h.target I hI
  obtain ⟨he, hp⟩ := target_excit h.refLt h1 h3 h2
  exact ⟨he, hp, by rw [he.rank]; exact h4⟩

/-- the excitations of the ansatz -/
def Sound.excs (_ : Sound A d k R dets) : List (List ℕ × List ℕ) := A.tops.map fun m => (holes (2 * k) (dets.getD m 0) R, holes (2 * k) R (dets.getD m 0))

theorem Sound.selects (h : Sound A d k R dets) : A.Selects h.excs := by
  unfold UccAlg.Selects Sound.excs
  rw [List.forall₂_map_right_iff, List.forall₂_same]
  intro m hm
  have hlt := h.mem m hm
  rw [List.getD_eq_getElem _ _ hlt]
  obtain ⟨e1, _, e3⟩ := h.excit (List.getElem_mem hlt)
  exact ⟨0, h.poolGet hlt, by rw [h.size]; exact e1, e3⟩

theorem Sound.excPool (h : Sound A d k R dets) : Adapt.ExcPool A.toUccAlg := by
  intro e he
  rw [h.pool] at he
  obtain ⟨I, hI, rfl⟩ := List.mem_map.1 he
  obtain ⟨e1, _, e3⟩ := h.excit hI
  exact ⟨_, _, rfl, by rw [h.size]; exact e1, e3, by simp⟩

/-- the sign that `get_residual_vector` computes: `κ_m|R⟩ = s|I_m⟩` -/
theorem Sound.sign (o : DescSort) (h : Sound A d k R dets) {m : ℕ} (hm : m < dets.length) : ∃ s : ℂ, signAdjust o A d m = .ok s ∧ (s = 1 ∨ s = -1) ∧
    kappa A.qubitExc (holes (2 * k) dets[m] R) (holes (2 * k) R dets[m]) (Pi.single R 1) = s • (Pi.single dets[m] 1 : St) := by
  have hI := List.getElem_mem hm
  obtain ⟨e1, e2, e3⟩ := h.excit hI
  have ht := h.target _ hI
  obtain ⟨s, hs, hk⟩ := C86_excites A.qubitExc k R [] (irrepOf [] (holes (2 * k) dets[m] 0)) none h.refLt dets[m]
    (((C86_complete k R [] _ none).1 _).2 ⟨ht.1, ht.2.1, ht.2.2.1, rfl, fun r e => by simp at e⟩)
  refine ⟨s, ?_, hs, hk⟩
  obtain ⟨C, idx, q, c1, c2, c3, c4, c5, c6, c7⟩ := C43_prepares A.ref h.occ (List.ne_nil_of_length_pos (by rw [h.len]; have := h.pos; omega)) A.nqb (by rw [h.len, h.size])
  rw [h.prep] at c1; cases c1
  have hidx : idx = R := Nat.eq_of_testBit_eq fun i => by rw [c7, h.isRef]
  subst hidx
  obtain ⟨Vs, hV⟩ := flows_exist A.qubitExc [(holes (2 * k) dets[m] idx, holes (2 * k) idx dets[m])]
  cases hV with
  | @cons _ V _ _ hV _ =>
  obtain ⟨Q, e1', hQ⟩ := gradOp_exists o e1 e3 A.qubitExc hV
  have hwf : q.WF := (applyAll_step _ (fun _ _ _ hq h => applyGate_step hq h) A.refprep _ _ (Computer.WF.init A.nqb) c3).wf (Computer.WF.init A.nqb)
  obtain ⟨q2, e2', w2, n2, p2⟩ := C24_apply_operator q Q hwf (by rw [c4, h.size]; exact hQ.exact)
  have hlen : dets[m] < q2.coeff.length := by rw [w2.len, n2, c4, h.size]; exact ht.1
  have hval : q2.coeff[dets[m]] = s := by
    have : q2.psi dets[m] = s := by rw [p2, hQ.op, c5, hk]; simp
    rw [← this]; simp only [Computer.psi, vec, List.getD_eq_getElem _ _ hlen]
  unfold signAdjust UccAlg.poolAt
  rw [h.poolGet hm]
  simp only
  rw [except_ok_bind, c3, except_ok_bind, e1', except_ok_bind]
  simp only
  rw [e2', except_ok_bind, h.coeffIdx hm, except_ok_bind, pyIndex_ok (List.getElem?_eq_getElem hlen), hval]

theorem mapM_congr {α β : Type} {f g : α → Except Exc β} {l : List α} (h : ∀ x ∈ l, f x = g x) : l.mapM f = l.mapM g := by
  induction l with
  | nil => rfl
  | cons x l ih => rw [List.mapM_cons, List.mapM_cons, h x (by simp), ih fun y hy => h y (by simp [hy])]

/-- the residual `⟨J|U† H U|Φ⟩` of a determinant `J` -/
noncomputable def detResidual (n : ℕ) (H U : Op) (Φ : St) (J : ℕ) : ℂ := inner n (U (Pi.single J 1)) (H (U Φ))

/-- the residual `⟨κR|U† H U|Φ⟩`, with the sign of the excitation -/
noncomputable def opResidual (n : ℕ) (q : Bool) (H U : Op) (R : ℕ) (Φ : St) (x : List ℕ × List ℕ) : ℂ := inner n (U (kappa q x.1 x.2 (Pi.single R 1))) (H (U Φ))

theorem inner_smul_left_real {n : ℕ} {s : ℂ} (hs : s = 1 ∨ s = -1) (a b : St) : inner n (s • a) b = s * inner n a b := by
  have hz : (starRingEnd ℂ) s = s := by rcases hs with e | e <;> rw [e] <;> simp
  unfold inner
  rw [Finset.mul_sum]
  refine Finset.sum_congr rfl fun I _ => ?_
  rw [Pi.smul_apply, smul_eq_mul, map_mul, hz, mul_assoc]

/-- `U† K U Φ` on the register, read off with a unitary circuit `U` -/
theorem coeff_inner {n : ℕ} {C : Circuit} (h3 : ∀ g ∈ C, ApiGate g ∧ ExactGate g) (h4 : C.Fits n) {q4 : Computer} (w4 : q4.WF) (hn4 : q4.nqubit = n) {φ : St}
    (hp : q4.psi = C.adjoint.op φ) {J : ℕ} (hJ : J < 2 ^ n) : q4.coeff[J]? = some (inner n (C.op (Pi.single J 1)) φ) := by
  have hlen : J < q4.coeff.length := by rw [w4.len, hn4]; exact hJ
  have hun := circuit_adjoint_op (fun g hg => (h3 g hg).1)
  have hφ : φ = C.op q4.psi := by rw [hp, ← Module.End.mul_apply, hun.2, Module.End.one_apply]
  rw [List.getElem?_eq_getElem hlen, hφ, inner_circuit h4 (fun g hg => C02_unitary (h3 g hg).1)]
  congr 1
  have : q4.coeff[J] = q4.psi J := by simp only [Computer.psi, vec, List.getD_eq_getElem _ _ hlen]
  rw [this]
  unfold inner
  rw [Finset.sum_eq_single J]
  · simp
  · intro I _ hI; simp [Pi.single_eq_of_ne hI]
  · intro hI; exact absurd (Finset.mem_range.2 hJ) hI

/-- the ansatz circuit of a sound object -/
theorem Sound.circuit (o : DescSort) (so : SortOracle) (h : Sound A d k R dets) (hc : A.compact = false) (hN : 1 ≤ A.trotterNumber) (ts : List ℝ) :
    ∃ C : Circuit, A.ansatzCircuit o so (some ts) = .ok C ∧ (∀ g ∈ C, ApiGate g ∧ ExactGate g) ∧ C.Fits A.nqb ∧
      (∀ Vs, Flows A.qubitExc h.excs Vs →
        C.op = uccOp Vs ((usedAmps h.excs ts).map fun t => t / A.trotterNumber) ^ A.trotterNumber.toNat) := by
  obtain ⟨C, Ws, h1, h2, h3, h4, h5⟩ := C70_ansatz o so A.toUccAlg h.excs h.selects h.plain hc hN ts
  refine ⟨C, h1, h4, h5, fun Vs hV => ?_⟩
  obtain ⟨C', e1, e2, _⟩ := C70_exact_used o so A.toUccAlg h.excs h.selects h.plain hc hN ts Vs hV
  rw [h1] at e1; cases e1
  exact e2

/-- C87: `get_residual_vector(t)` returns, in the order of the operators of the ansatz, `⟨κ_μ Φ₀|U† H U|Φ⟩` with the Jacobi solver and `⟨Φ_μ|U† H U|Φ⟩` with the other
solvers, where `U` is the operator of the circuit `ansatz_circuit(t)`; it raises `ValueError` exactly if one of these numbers is not real.  `U` is the disentangled UCC
operator of the used amplitudes (those whose Pauli terms are at most 1e-12 count as zero).  A wrong number of amplitudes is an `AssertionError`. -/
theorem C87_residual (o : DescSort) (so : SortOracle) (jacobi : Bool) (A : PqeAlg) (d : List (ℕ × ℕ)) (k R : ℕ) (dets : List ℕ) (h : Sound A d k R dets)
    (hc : A.compact = false) (hN : 1 ≤ A.trotterNumber) (hR : A.Ready) (h0 : A.computer = none) (ts : List ℝ) :
    (ts.length ≠ A.tops.length → residualVector o so jacobi A d ts = .error .assertionError) ∧
    (ts.length = A.tops.length → ∃ C : Circuit, A.ansatzCircuit o so (some ts) = .ok C ∧
      (∀ Vs, Flows A.qubitExc h.excs Vs →
        C.op = uccOp Vs ((usedAmps h.excs ts).map fun t => t / A.trotterNumber) ^ A.trotterNumber.toNat) ∧
      ∀ r : List ℂ, r = A.tops.map (fun m => if jacobi then opResidual A.nqb A.qubitExc A.ham.op C.op R A.reference (holes (2 * k) (dets.getD m 0) R, holes (2 * k) R (dets.getD m 0))
          else detResidual A.nqb A.ham.op C.op A.reference (dets.getD m 0)) →
        ((∀ x ∈ r, x.im = 0) → residualVector o so jacobi A d ts = .ok r) ∧ ((∃ x ∈ r, x.im ≠ 0) → residualVector o so jacobi A d ts = .error .valueError)) := by
  classical
  constructor
  · intro hl; unfold residualVector; rw [if_pos hl]
  intro hl
  obtain ⟨C, h1, h3, h4, h5⟩ := h.circuit o so hc hN ts
  refine ⟨C, h1, h5, ?_⟩
  have e0 : A.initialComputer = Computer.init A.nqb := by unfold UccAlg.initialComputer; rw [h0]; rfl
  obtain ⟨q1, e1, w1, n1, p1⟩ := applyCircuit_exact (q := Computer.init A.nqb) A.uprep (Computer.WF.init _) hR.prep.1 hR.prep.2
  obtain ⟨q2, e2, w2, n2, p2⟩ := applyCircuit_exact (q := q1) C w1 (by rw [n1]; exact h4) (fun g hg => (h3 g hg).2)
  have hn2 : q2.nqubit = A.nqb := n2.trans n1
  obtain ⟨q3, e3, w3, n3, p3⟩ := C24_apply_operator q2 A.ham w2 (by rw [hn2]; exact hR.ham)
  have hn3 : q3.nqubit = A.nqb := n3.trans hn2
  obtain ⟨q4, e4, w4, n4, p4⟩ := applyCircuit_exact (q := q3) C.adjoint w3 (by rw [hn3]; exact adj_fits h4) (adjoint_exact h3)
  have hn4 : q4.nqubit = A.nqb := n4.trans hn3
  have hpsi : q4.psi = C.adjoint.op (A.ham.op (C.op A.reference)) := by rw [p4, p3, p2, p1, UccAlg.reference, e0]
  have key : residualVector o so jacobi A d ts = (A.tops.map (fun m => if jacobi then
      opResidual A.nqb A.qubitExc A.ham.op C.op R A.reference (holes (2 * k) (dets.getD m 0) R, holes (2 * k) R (dets.getD m 0))
      else detResidual A.nqb A.ham.op C.op A.reference (dets.getD m 0))).mapM (fun r => if r.im ≠ 0 then .error .valueError else pure r) := by
    unfold residualVector
    rw [if_neg (by simpa using hl), h1, except_ok_bind, e1, except_ok_bind, e2, except_ok_bind, e3, except_ok_bind, e4, except_ok_bind, List.mapM_map]
    apply mapM_congr
    intro m hm
    have hlt := h.mem m hm
    have hI := (h.target _ (List.getElem_mem hlt)).1
    have hcf := coeff_inner h3 h4 w4 hn4 hpsi (J := dets[m]) (by rw [h.size]; exact hI)
    simp only [Function.comp, List.getD_eq_getElem _ _ hlt]
    obtain ⟨s, s1, s2, s3⟩ := h.sign o hlt
    cases jacobi
    · simp only [Bool.false_eq_true, if_false, h.coeffIdx hlt, pyIndex_ok hcf, except_ok_bind, detResidual]
      rfl
    · have hval : inner A.nqb (C.op (Pi.single dets[m] 1)) (A.ham.op (C.op A.reference)) * s =
          opResidual A.nqb A.qubitExc A.ham.op C.op R A.reference (holes (2 * k) dets[m] R, holes (2 * k) R dets[m]) := by
        unfold opResidual
        rw [s3, map_smul, inner_smul_left_real s2, mul_comm]
      simp only [if_true, s1, h.coeffIdx hlt, pyIndex_ok hcf, except_ok_bind, hval]
  intro r hr
  rw [key, ← hr]
  have hg := mapM_guard (fun x : ℂ => x.im ≠ 0) r (e := .valueError)
  constructor
  · intro h
    rcases hg with ⟨_, e⟩ | ⟨⟨y, hy, hn⟩, _⟩
    · rw [← e]
    · exact absurd (h y hy) hn
  · rintro ⟨x, hx, hn⟩
    rcases hg with ⟨h, _⟩ | ⟨_, e⟩
    · exact absurd hn (h _ hx)
    · rw [← e]

/-- C87: the two conventions differ by a sign, so the sum of squares that the scipy optimizers minimise is the same, and it vanishes exactly if all residuals do. -/
theorem C87_sign (n : ℕ) (q : Bool) (H U : Op) (k R : ℕ) (Φ : St) (irr : List ℕ) (irrep : ℕ) (rank : Option ℤ) (hR : R < 2 ^ (2 * k)) (I : ℕ)
    (hI : I ∈ targets k R irr irrep rank) :
    (opResidual n q H U R Φ (holes (2 * k) I R, holes (2 * k) R I) = detResidual n H U Φ I ∨
      opResidual n q H U R Φ (holes (2 * k) I R, holes (2 * k) R I) = -detResidual n H U Φ I) ∧
    ‖opResidual n q H U R Φ (holes (2 * k) I R, holes (2 * k) R I)‖ = ‖detResidual n H U Φ I‖ := by
  obtain ⟨s, hs, hk⟩ := C86_excites q k R irr irrep rank hR I hI
  have hv : opResidual n q H U R Φ (holes (2 * k) I R, holes (2 * k) R I) = s * detResidual n H U Φ I := by
    unfold opResidual detResidual
    rw [hk, map_smul, inner_smul_left_real hs]
  rw [hv]
  rcases hs with rfl | rfl <;> simp

theorem realOp_pow {U : Op} (h : RealOp U) (n : ℕ) : RealOp (U ^ n) := by
  induction n with
  | zero => exact RealOp.one
  | succ n ih => rw [pow_succ]; exact ih.mul h

theorem realOp_ucc {q : Bool} {xs : List (List ℕ × List ℕ)} {Vs : List (ℝ → Op)} (hV : Flows q xs Vs) (ts : List ℝ) : RealOp (uccOp Vs ts) := by
  unfold uccOp
  refine RealOp.applyInOrder ?_
  unfold Flows at hV
  induction hV generalizing ts with
  | nil => simp
  | @cons x V xs Vs hV _ ih =>
    cases ts with
    | nil => simp
    | cons t ts =>
      intro W hW
      rcases List.mem_cons.1 hW with rfl | hW
      · exact RealOp.flow (kappa_skew q x.1 x.2) (hV t)
      · exact ih ts W hW

theorem conj_single (J : ℕ) : conjSt (Pi.single J 1) = Pi.single J 1 := by
  funext I; by_cases hI : I = J
  · subst hI; simp [conjSt]
  · simp [conjSt, Pi.single_eq_of_ne hI]

theorem detResidual_real {n : ℕ} {H U : Op} (hH : RealOp H) (hU : RealOp U) (R J : ℕ) : (detResidual n H U (Pi.single R 1) J).im = 0 := by
  rw [← Complex.conj_eq_iff_im]
  unfold detResidual
  have r1 : conjSt (U (Pi.single J 1)) = U (Pi.single J 1) := by rw [← hU, conj_single]
  have r2 : conjSt (H (U (Pi.single R 1))) = H (U (Pi.single R 1)) := by rw [← hH, ← hU, conj_single]
  unfold inner
  rw [map_sum]
  refine Finset.sum_congr rfl fun I _ => ?_
  have a1 := congrFun r1 I
  have a2 := congrFun r2 I
  simp only [conjSt] at a1 a2
  rw [map_mul, a1, a1, a2]

/-- the state prepared by `build_refprep` -/
theorem Sound.reference (h : Sound A d k R dets) (hR : A.Ready) (h0 : A.computer = none) (hu : A.uprep = A.refprep) : A.reference = Pi.single R 1 := by
  obtain ⟨C, idx, q, c1, c2, c3, c4, c5, c6, c7⟩ := C43_prepares A.ref h.occ (List.ne_nil_of_length_pos (by rw [h.len]; have := h.pos; omega)) A.nqb (by rw [h.len, h.size])
  rw [h.prep] at c1; cases c1
  have hidx : idx = R := Nat.eq_of_testBit_eq fun i => by rw [c7, h.isRef]
  subst hidx
  have e0 : A.initialComputer = Computer.init A.nqb := by unfold UccAlg.initialComputer; rw [h0]; rfl
  obtain ⟨q1, e1, w1, n1, p1⟩ := applyCircuit_exact (q := Computer.init A.nqb) A.uprep (Computer.WF.init _) hR.prep.1 hR.prep.2
  rw [hu, c3] at e1; cases e1
  rw [UccAlg.reference, e0, ← p1, c5]

/-- C87: for a Hamiltonian with a real matrix, all residuals are real and `get_residual_vector` returns them. -/
theorem C87_real (o : DescSort) (so : SortOracle) (jacobi : Bool) (A : PqeAlg) (d : List (ℕ × ℕ)) (k R : ℕ) (dets : List ℕ) (h : Sound A d k R dets)
    (hc : A.compact = false) (hN : 1 ≤ A.trotterNumber) (hR : A.Ready) (h0 : A.computer = none) (hu : A.uprep = A.refprep)
    (hH : ∀ t ∈ A.ham, t.1.im = 0 ∧ t.2.PauliString A.nqb ∧ Even t.2.numY) (ts : List ℝ) (hl : ts.length = A.tops.length)
    (Vs : List (ℝ → Op)) (hV : Flows A.qubitExc h.excs Vs) :
    residualVector o so jacobi A d ts = .ok (A.tops.map fun m =>
      if jacobi then opResidual A.nqb A.qubitExc A.ham.op (uccOp Vs ((usedAmps h.excs ts).map fun t => t / A.trotterNumber) ^ A.trotterNumber.toNat) R (Pi.single R 1)
        (holes (2 * k) (dets.getD m 0) R, holes (2 * k) R (dets.getD m 0))
      else detResidual A.nqb A.ham.op (uccOp Vs ((usedAmps h.excs ts).map fun t => t / A.trotterNumber) ^ A.trotterNumber.toNat) (Pi.single R 1) (dets.getD m 0)) := by
  obtain ⟨C, _, e, key⟩ := (C87_residual o so jacobi A d k R dets h hc hN hR h0 ts).2 hl
  rw [h.reference hR h0 hu, e Vs hV] at key
  refine (key _ rfl).1 ?_
  intro x hx
  obtain ⟨m, hm, rfl⟩ := List.mem_map.1 hx
  have hU : RealOp (uccOp Vs ((usedAmps h.excs ts).map fun t => t / A.trotterNumber) ^ A.trotterNumber.toNat) := realOp_pow (realOp_ucc hV _) _
  have hHr : RealOp A.ham.op := realOp_of_even hH
  have hd := detResidual_real (n := A.nqb) hHr hU R (dets.getD m 0)
  cases jacobi
  · simpa using hd
  · have hlt := h.mem m hm
    obtain ⟨s, s1, s2, s3⟩ := h.sign o hlt
    simp only [if_true]
    rw [List.getD_eq_getElem _ _ hlt] at hd ⊢
    have hv : opResidual A.nqb A.qubitExc A.ham.op (uccOp Vs ((usedAmps h.excs ts).map fun t => t / A.trotterNumber) ^ A.trotterNumber.toNat) R (Pi.single R 1)
        (holes (2 * k) dets[m] R, holes (2 * k) R dets[m]) =
        s * detResidual A.nqb A.ham.op (uccOp Vs ((usedAmps h.excs ts).map fun t => t / A.trotterNumber) ^ A.trotterNumber.toNat) (Pi.single R 1) dets[m] := by
      unfold opResidual detResidual
      rw [s3, map_smul, inner_smul_left_real s2]
    rw [hv]
    rcases s2 with rfl | rfl <;> simp [hd]

/-- the pool of `C86_example` on four spin orbitals, with the ansatz made of the double excitation and one of the single excitations -/
noncomputable def exampleSpqe : PqeAlg := { examplePqe with
  pool := [6, 9, 12].map fun I => (0, excTerms (holes 4 I 3) (holes 4 3 I))
  tops := [2, 0] }

/-- C87: the example meets the hypotheses of the theorems. -/
theorem C87_example : ∃ h : Sound exampleSpqe [(6, 0), (9, 1), (12, 2)] 2 3 [6, 9, 12], exampleSpqe.Ready ∧ exampleSpqe.compact = false ∧ 1 ≤ exampleSpqe.trotterNumber ∧
    exampleSpqe.computer = none ∧ exampleSpqe.uprep = exampleSpqe.refprep ∧
    (∀ t ∈ exampleSpqe.ham, t.1.im = 0 ∧ t.2.PauliString exampleSpqe.nqb ∧ Even t.2.numY) ∧ HermitianOn exampleSpqe.nqb exampleSpqe.ham.op ∧
    exampleSpqe.tamps.length = exampleSpqe.tops.length ∧ usedAmps h.excs exampleSpqe.tamps = exampleSpqe.tamps := by
  obtain ⟨g1, g2, _, g4, g5, g6, g7, _⟩ := C73_example
  obtain ⟨_, _, _, k4, _, _, _⟩ := C71_example
  have hS : Sound exampleSpqe [(6, 0), (9, 1), (12, 2)] 2 3 [6, 9, 12] := by
    refine ⟨rfl, by norm_num, by norm_num, ?_, rfl, g2, g1.prep, ?_, by decide, rfl, rfl, rfl, ?_⟩
    · exact g1.occ
    · unfold SameSpin
      decide
    · simp [exampleSpqe]
  refine ⟨hS, ⟨g4.wf, g4.size, g4.prep, g4.ham⟩, rfl, by simp [exampleSpqe, examplePqe, exampleAlg], g6, g5, g7, k4, by simp [exampleSpqe, examplePqe, exampleAlg], ?_⟩
  refine usedAmps_eq (by simp [exampleSpqe, examplePqe, exampleAlg, Sound.excs]) fun p hp => ?_
  simp only [exampleSpqe, examplePqe, exampleAlg, Sound.excs, List.map_cons, List.map_nil, List.zip_cons_cons, List.zip_nil_right, List.mem_cons, List.not_mem_nil, or_false] at hp
  rcases hp with rfl | rfl <;> refine .inr ?_
  · refine lt_of_le_of_lt (b := (1e-12 : ℝ) * 2 ^ 4) ?_ (by norm_num)
    gcongr
    · norm_num
    · exact List.toFinset_card_le _
  · refine lt_of_le_of_lt (b := (1e-12 : ℝ) * 2 ^ 4) ?_ (by norm_num)
    gcongr
    · norm_num
    · exact (List.toFinset_card_le _).trans (by decide)

end Spqe
end QF
