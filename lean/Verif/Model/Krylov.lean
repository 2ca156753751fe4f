import Verif.Model.GEig
import Verif.Model.Expo
import Verif.Model.Sparse

/-!
Model of the matrices of the quantum Krylov algorithms: `qkd/srqk.py` (`build_qk_mats_fast`), `qkd/nt_srqk.py` (`build_qk_mats`),
`qkd/mrsqk.py` (`build_qk_mats_fast`, `build_classical_CI_mats`) and `utils/exp_ops.py`.  Printing, the diagnostic diagonalization of
every step, the summary file and the counters are left out.  `scipy.sparse.linalg.expm_multiply` is a parameter.
-/
namespace QF

/-- the attributes the Krylov algorithms read -/
structure QkAlg where
  /-- `self._nqb` -/
  nqb : ℕ
  /-- `self._Uprep` -/
  uprep : Circuit := []
  /-- `self._qb_ham` -/
  ham : QubitOperator
  /-- `self._nstates` (SRQK), `self._nstates_per_ref` (MRSQK) -/
  nstates : ℕ
  /-- `self._dt` (SRQK), `self._mr_dt` (MRSQK) -/
  dt : ℝ
  /-- `self._trotter_number` -/
  trotterNumber : ℤ := 1

/-- `M[i][j] = z` -/
def NMat.set (M : NMat) (i j : ℕ) (z : ℂ) : NMat := fun a b => if a = i ∧ b = j then z else M a b

/-- `np.vdot(u, v)`: different sizes are a ValueError -/
noncomputable def vdot (u v : List ℂ) : Except Exc ℂ :=
  if u.length = v.length then .ok (List.zipWith (fun a b => (starRingEnd ℂ) a * b) u v).sum else .error .valueError

/-- the four assignments of the inner loop, srqk.py:161-165, nt_srqk.py:165-169, mrsqk.py:322-325; `M` is `(s_mat, h_mat)` -/
noncomputable def fillPair (om hom : List (List ℂ)) (M : NMat × NMat) (m n : ℕ) : Except Exc (NMat × NMat) := do
  let u ← (om[m]?).elim (.error .indexError) pure
  let hv ← (hom[n]?).elim (.error .indexError) pure
  let v ← (om[n]?).elim (.error .indexError) pure
  let h ← vdot u hv
  let s ← vdot u v
  pure ((M.1.set m n s).set n m ((starRingEnd ℂ) s), (M.2.set m n h).set n m ((starRingEnd ℂ) h))

/-- `np.zeros((n, n))`, twice -/
def zeroMats : NMat × NMat := (fun _ _ => 0, fun _ _ => 0)

namespace QkAlg

/-- the circuit and phase of `exp(-i m dt H)`, srqk.py:140-148, mrsqk.py:296-301 -/
noncomputable def evolution (A : QkAlg) (m : ℕ) : Except Exc (Circuit × ℂ) :=
  if 0 < m then trotterize A.ham (-Complex.I * m * A.dt) A.trotterNumber else pure ([], 1)

/-- `omega_lst[m]` and `Homega_lst[m]`, srqk.py:140-158; the new values are returned -/
noncomputable def omega (A : QkAlg) (prep : Circuit) (m : ℕ) : Except Exc (List ℂ × List ℂ) := do
  let (C, ph) ← A.evolution m
  let q ← (Computer.init A.nqb).applyCircuit (prep.addCircuit C)
  let q := q.applyConstant ph
  let w := q.coeff
  let q ← q.applyOperator A.ham
  pure (w, q.coeff)

/-- one iteration of the loop over `m`: append the two vectors and fill row and column `m`, srqk.py:138-165 -/
noncomputable def srqkStep (A : QkAlg) (st : List (List ℂ) × List (List ℂ) × (NMat × NMat)) (m : ℕ) :
    Except Exc (List (List ℂ) × List (List ℂ) × (NMat × NMat)) := do
  let (w, hw) ← A.omega A.uprep m
  let om := st.1 ++ [w]
  let hom := st.2.1 ++ [hw]
  let M ← (List.range om.length).foldlM (fun M n => fillPair om hom M m n) st.2.2
  pure (om, hom, M)

/-- `SRQK.build_qk_mats_fast()`, srqk.py:103-204: `(s_mat, h_mat)`.  Without any state `Um` is unbound at line 196. -/
noncomputable def srqkMats (A : QkAlg) : Except Exc (NMat × NMat) :=
  if A.nstates = 0 then .error .nameError else do
    let st ← (List.range A.nstates).foldlM A.srqkStep ([], [], zeroMats)
    pure st.2.2

/-- the second part of `MRSQK.build_qk_mats_fast`: fill the upper triangle and mirror it, mrsqk.py:320-325 -/
noncomputable def fillUpper (om hom : List (List ℂ)) (n : ℕ) : Except Exc (NMat × NMat) :=
  (List.range n).foldlM (fun M p => ((List.range n).filter fun q => p ≤ q).foldlM (fun M q => fillPair om hom M p q) M) zeroMats

/-- the circuit that prepares the determinant `ref`, mrsqk.py:290-294, and the phase variable after it: it is set in the loop over the
occupied orbitals only, and otherwise keeps the value `old` it had before -/
noncomputable def detPrep (A : QkAlg) (ref : List ℕ) (old : Option ℂ) : Except Exc (Circuit × Option ℂ) :=
  (List.range A.nqb).foldlM (fun s j => do
    let b ← (ref[j]?).elim (.error .indexError) pure
    if b = 1 then do
      let x ← makeGate "X" j j 0
      pure (s.1.addGate x, some 1)
    else pure s) ([], old)

/-- one basis state of `MRSQK.build_qk_mats_fast`, mrsqk.py:288-309; `old` is the value of `phase1` left by the previous iteration -/
noncomputable def mrOmega (A : QkAlg) (ref : List ℕ) (m : ℕ) (old : Option ℂ) : Except Exc ((List ℂ × List ℂ) × Option ℂ) := do
  let (U, ph) ← A.detPrep ref old
  let (C, ph) ← (if 0 < m then do
      let (C, p) ← trotterize A.ham (-Complex.I * m * A.dt) A.trotterNumber
      pure (U.addCircuit C, some p)
    else pure (U, ph) : Except Exc (Circuit × Option ℂ))
  let q ← (Computer.init A.nqb).applyCircuit C
  match ph with
  | none => .error .nameError
  | some p => do
    let q := q.applyConstant p
    let w := q.coeff
    let q ← q.applyOperator A.ham
    pure ((w, q.coeff), some p)

/-- the loops that fill `omega_lst` and `Homega_lst`, mrsqk.py:287-309 -/
noncomputable def mrOmegas (A : QkAlg) (refs : List (List ℕ)) : Except Exc (List (List ℂ × List ℂ)) := do
  let r ← (refs.flatMap fun ref => (List.range A.nstates).map fun m => (ref, m)).foldlM
    (fun (s : List (List ℂ × List ℂ) × Option ℂ) x => do
      let (v, p) ← A.mrOmega x.1 x.2 s.2
      pure (s.1 ++ [v], p)) ([], none)
  pure r.1

/-- `MRSQK.build_qk_mats_fast()`, mrsqk.py:277-355; `refs` is `self._single_det_refs` -/
noncomputable def mrsqkMats (A : QkAlg) (refs : List (List ℕ)) : Except Exc (NMat × NMat) := do
  let l ← A.mrOmegas refs
  fillUpper (l.map Prod.fst) (l.map Prod.snd) (refs.length * A.nstates)

end QkAlg

/-- `scipy.sparse.linalg.expm_multiply(A, v, start, stop, num, endpoint=True)` for a matrix of size `n` -/
abbrev ExpmOracle := ℕ → NMat → List ℂ → ℝ → ℝ → ℕ → List (List ℂ)

/-- `get_scipy_csc_from_op(Hop, factor)`, exp_ops.py:12-27: the size and the matrix.  Python's `data` list holds
`factor * value` for every stored element; elements that are not stored are zero. -/
noncomputable def scipyCsc (H : QubitOperator) (factor : ℂ) : Except Exc (ℕ × NMat) := do
  let M ← H.sparseMatrix H.numQubits
  pure (2 ^ H.numQubits, fun I J => factor * M.get I J)

/-- `NTSRQK.build_qk_mats()`, nt_srqk.py:103-208.  `expm_multiply` refuses a vector whose size is not the size of the matrix. -/
noncomputable def QkAlg.ntsrqkMats (expm : ExpmOracle) (A : QkAlg) : Except Exc (NMat × NMat) := do
  let (N, Hsp) ← scipyCsc A.ham (-Complex.I)
  let q ← (Computer.init A.nqb).applyCircuit A.uprep
  if q.coeff.length ≠ N then .error .valueError else do
    let vecs := expm N Hsp q.coeff 0 A.dt A.nstates
    let st ← (List.range A.nstates).foldlM (fun (st : List (List ℂ) × List (List ℂ) × (NMat × NMat)) m => do
      let v ← (vecs[m]?).elim (.error .indexError) pure
      let q := (Computer.init A.nqb).setCoeffVec v
      let q' ← q.applyOperator A.ham
      let om := st.1 ++ [q.coeff]
      let hom := st.2.1 ++ [q'.coeff]
      let M ← (List.range om.length).foldlM (fun M n => fillPair om hom M m n) st.2.2
      pure (om, hom, M)) ([], [], zeroMats)
    pure st.2.2

end QF
