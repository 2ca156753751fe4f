import Verif.Model.QSD
import Verif.Model.StatePrep
import Verif.Model.ComputerOps

/-!
Model of `qkd/mrsqk.py`: the preliminary SRQK calculation, the selection of the determinants (`build_refs`), the spin-adapted references
(`build_sa_refs`, `build_classical_CI_mats`), their matrices (`build_sa_qk_mats`), and of the diagnostic diagonalization after every step
of `srqk.py` and `mrsqk.py`.  Printing and the counters are left out.  A numpy `nan` is `none`.
-/
namespace QF

/-- the diagonalizations of `diagonalize_each_step=True`: after state number `p` the leading blocks of size `p+1` are solved and the target
root is printed, srqk.py:160-189, mrsqk.py:327-349 and 445-471.  Simplification: they are made after the matrices have been filled; the
leading block of size `p+1` does not change after step `p`. -/
noncomputable def diagSteps (eig : EigOracle) (k : ℕ) (target : ℤ) (M : NMat × NMat) : Except Exc Unit :=
  (List.range k).foldlM (fun _ p => do
    let (ev, _) ← canonicalGeigSolve eig (p + 1) M.1 M.2 true
    let _ ← pyIndexZ ev target
    pure ()) ()

/-- `common_run()`, qsdabc.py:87-115, including the diagnostic diagonalizations made by `build_qk_mats()` -/
noncomputable def qsdFull (eig : EigOracle) (each : Bool) (k : ℕ) (target : ℤ) (M : NMat × NMat) : Except Exc QsdResult := do
  if each then diagSteps eig k target M else pure ()
  qsdRun eig k target M

/-- `SRQK.run(s, dt, target_root, diagonalize_each_step)`, srqk.py:46-60: `self._omega_lst` and the results -/
noncomputable def QkAlg.srqkFull (eig : EigOracle) (A : QkAlg) (target : ℤ) (each : Bool) : Except Exc (List (List ℂ) × QsdResult) :=
  if A.nstates = 0 then .error .nameError else do
    let st ← (List.range A.nstates).foldlM A.srqkStep ([], [], zeroMats)
    let R ← qsdFull eig each A.nstates target st.2.2
    pure (st.1, R)

/-- `sorted_largest_idxs(array)` with the default arguments, idx_org.py:5-36: python's stable `sorted` with `reverse=True`; numpy compares
complex numbers by real part, then by imaginary part -/
noncomputable def sortedLargestCplx (array : List ℂ) : List (ℂ × ℕ) :=
  open Classical in array.zipIdx.insertionSort (fun a b => b.1.re < a.1.re ∨ (b.1.re = a.1.re ∧ b.1.im ≤ a.1.im))

/-- the slices `l[c:c+n]` for the consecutive lengths `n` of a list, mrsqk.py:652-665 -/
def slices {α : Type} : List α → List ℕ → List (List α)
  | _, [] => []
  | l, n :: ns => l.take n :: slices (l.drop n) ns

/-- an `MRSQK` object and the arguments of `run`, mrsqk.py:123-156; simplification: `d`, `s`, `s_o` are not negative -/
structure MrsqkAlg where
  /-- `self._nqb` -/
  nqb : ℕ
  /-- `self._ref` -/
  ref : List ℕ
  /-- `self._qb_ham` -/
  ham : QubitOperator
  /-- `self._trotter_number` -/
  trotterNumber : ℤ := 1
  /-- `self._fast` -/
  fast : Bool := true
  /-- `self._state_prep_type` -/
  statePrepType : String := "occupation_list"
  d : ℕ := 2
  s : ℕ := 3
  mrDt : ℝ := 0.5
  targetRoot : Option ℤ := some 0
  referenceGenerator : String := "SRQK"
  usePhase : Bool := false
  useSa : Bool := true
  sO : ℕ := 4
  dtO : ℝ := 0.25
  trotterNumberO : ℤ := 1
  diagEach : Bool := true

namespace MrsqkAlg

/-- the preliminary `SRQK` object, mrsqk.py:173-180; its preparation circuit `uprep` is built from the same reference -/
noncomputable def srqk (A : MrsqkAlg) (uprep : Circuit) : QkAlg :=
  { nqb := A.nqb, uprep := uprep, ham := A.ham, nstates := A.sO + 1, dt := A.dtO, trotterNumber := A.trotterNumberO }

/-- the attributes the matrix builders of `MRSQK` read -/
noncomputable def qk (A : MrsqkAlg) : QkAlg :=
  { nqb := A.nqb, ham := A.ham, nstates := A.s + 1, dt := A.mrDt, trotterNumber := A.trotterNumber }

/-- `C`, the sorted eigenvectors, mrsqk.py:508-516 -/
noncomputable def sortedEvecs (R : QsdResult) : NMat :=
  fun k n => R.eigenvectors k (((sortedLargestIdxs R.eigenvalues false).map Prod.snd).getD n 0)

/-- `self._ninitial_states` after the adjustment, mrsqk.py:495-506 -/
def nInitial (A : MrsqkAlg) (R : QsdResult) : ℕ := min (A.sO + 1) R.eigenvalues.length

/-- `Cprime[n][I]` after the loop that squares it, mrsqk.py:520-524 -/
noncomputable def cPrime (A : MrsqkAlg) (R : QsdResult) (om : List (List ℂ)) (n I : ℕ) : ℂ :=
  let z := ∑ k ∈ Finset.range (A.sO + 1), (starRingEnd ℂ) (sortedEvecs R k n) * (om.getD k []).getD I 0
  z * (starRingEnd ℂ) z

/-- `Cprime_sq_mod[n][I]`, mrsqk.py:518 and 526-530: only the first `_ninitial_states` rows of the basis are squared -/
noncomputable def cPrimeSqMod (A : MrsqkAlg) (R : QsdResult) (om : List (List ℂ)) (n I : ℕ) : ℂ :=
  ∑ k ∈ Finset.range (A.sO + 1), (sortedEvecs R k n * (starRingEnd ℂ) (sortedEvecs R k n)) *
    (if k < A.nInitial R then (om.getD k []).getD I 0 * (starRingEnd ℂ) ((om.getD k []).getD I 0) else (om.getD k []).getD I 0)

/-- `num_single_det_refs`, mrsqk.py:535-538 -/
def numDets (A : MrsqkAlg) : ℕ := if A.useSa then 2 * A.d else A.d

/-- `build_refs()`, mrsqk.py:485-598: `self._single_det_refs`.  A missing reference determinant leads to the undefined name
`initial_ref`. -/
noncomputable def buildRefs (A : MrsqkAlg) (R : QsdResult) (om : List (List ℂ)) : Except Exc (List (List ℕ)) :=
  match A.targetRoot with
  | none => .error .notImplemented
  | some t => do
    let row ← pyIndexZ (List.range (A.nInitial R)) t
    let trueSorted := sortedLargestCplx ((List.range (2 ^ A.nqb)).map (A.cPrime R om row))
    let sorted := sortedLargestCplx ((List.range (2 ^ A.nqb)).map (A.cPrimeSqMod R om row))
    let idxs ← (List.range A.numDets).mapM fun n => do
      let a ← (sorted[n]?).elim (.error .indexError) pure
      let b ← (trueSorted[n]?).elim (.error .indexError) pure
      pure (a.2, b.2)
    let trueRefs ← idxs.mapM fun p => integerToRef p.2 A.nqb
    if A.ref ∉ trueRefs then .error .nameError else do
      let refs ← idxs.mapM fun p => integerToRef p.1 A.nqb
      if A.ref ∉ refs then .error .nameError else
        pure (if A.usePhase then trueRefs else refs)

/-- `self._pre_sa_ref_lst` and `num_refs_per_config`, mrsqk.py:609-620 -/
def saConfigs (fuel : ℕ) (dets : List (List ℕ)) : Except Exc (List (List ℕ) × List ℕ) :=
  dets.foldlM (fun st ref =>
    if ref ∈ st.1 then pure st
    else if openShell ref then do
      let t ← buildEqDets fuel ref
      pure (st.1 ++ t, st.2 ++ [t.length])
    else pure (st.1 ++ [ref], st.2 ++ [1])) ([], [])

/-- the state vectors of `build_classical_CI_mats`, mrsqk.py:365-379 -/
noncomputable def ciVecs (A : MrsqkAlg) (ref : List ℕ) : Except Exc (List ℂ × List ℂ) := do
  let (U, _) ← A.qk.detPrep ref none
  let q ← (Computer.init A.nqb).applyCircuit U
  let q' ← q.applyOperator A.ham
  pure (q.coeff, q'.coeff)

/-- `build_classical_CI_mats()`, mrsqk.py:357-385.  `fillPair` also computes the overlaps, which are dropped. -/
noncomputable def ciMat (A : MrsqkAlg) (pre : List (List ℕ)) : Except Exc NMat := do
  let st ← pre.zipIdx.foldlM (fun (st : List (List ℂ) × List (List ℂ) × (NMat × NMat)) x => do
    let (w, hw) ← A.ciVecs x.1
    let om := st.1 ++ [w]
    let hom := st.2.1 ++ [hw]
    let M ← (List.range om.length).foldlM (fun M j => fillPair om hom M x.2 j) st.2.2
    pure (om, hom, M)) ([], [], zeroMats)
  pure st.2.2.2

/-- the classical CI root that is used, mrsqk.py:634-648; `E k n` is component `k` of sorted root `n` of `size` roots -/
noncomputable def ciRoot (size : ℕ) (E : ℕ → ℕ → ℝ) (t : ℤ) : Except Exc ℤ :=
  open Classical in
  if |E 0 0| < 1e-6 then
    match ((List.range size).drop 1).find? fun r => decide (¬ |E 0 r| < 1e-6) with
    | some r => .ok r
    | none => .error .indexError
  else .ok t

/-- `temp`, mrsqk.py:657-661: the coefficients of a configuration divided by their norm; `0/0` is `nan` -/
noncomputable def normalised (c : List ℝ) : List (Option ℝ) :=
  let summ := (c.map fun x => x * x).sum
  c.map fun x => open Classical in if summ = 0 then none else some (x / Real.sqrt summ)

/-- the importance of a configuration, mrsqk.py:691-695: `val` is set to zero for every coefficient.  An empty configuration would leave
`val` unbound; it does not occur. -/
noncomputable def importance (c : List ℝ) : Except Exc ℝ := (c.getLast?).elim (.error .nameError) fun x => .ok (0 + x * x)

/-- `build_sa_refs()`, mrsqk.py:600-721: `self._sa_ref_lst` -/
noncomputable def buildSaRefs (fuel : ℕ) (eig : EigOracle) (A : MrsqkAlg) (t : ℤ) (dets : List (List ℕ)) :
    Except Exc (List (List (Option ℝ × List ℕ))) :=
  if A.fast = false then .error .notImplemented else do
    let (pre, nums) ← saConfigs fuel dets
    let h ← A.ciMat pre
    let (ev, V) := eig pre.length h
    let E : ℕ → ℕ → ℝ := fun k n => (V k (((sortedLargestIdxs ev false).map Prod.snd).getD n 0)).re
    let root ← ciRoot ev.length E t
    let col ← pyIndexZ (List.range ev.length) root
    let target := (List.range pre.length).map fun k => E k col
    let coeffs := slices target nums
    let normed := coeffs.map normalised
    let detLst := slices pre nums
    let imp ← coeffs.mapM importance
    let sorted := sortedLargestIdxs (imp.map fun x : ℝ => (x : ℂ)) true
    (List.range A.d).mapM fun i => do
      let p ← (sorted[i]?).elim (.error .indexError) pure
      pure ((normed.getD p.2 []).zip (detLst.getD p.2 []))

/-- one entry of the list passed to `set_state`, mrsqk.py:414-418.  A `nan` coefficient makes `scipy.linalg.eig` raise a ValueError later
on; `QubitBasis(idx)` takes a `size_t`. -/
noncomputable def saTerm (term : Option ℝ × List ℕ) : Except Exc (ℕ × ℂ) := do
  let idx ← refToBasisIdx term.2
  if idx < 2 ^ 64 then term.1.elim (.error .valueError) fun c => pure (idx, (c : ℂ)) else .error .typeError

/-- the list passed to `set_state`, mrsqk.py:412-420 -/
noncomputable def saPrep (ref : List (Option ℝ × List ℕ)) : Except Exc (List (ℕ × ℂ)) := ref.mapM saTerm

/-- one basis state of `build_sa_qk_mats`, mrsqk.py:402-426 -/
noncomputable def saOmega (A : MrsqkAlg) (ref : List (Option ℝ × List ℕ)) (m : ℕ) : Except Exc (List ℂ × List ℂ) := do
  let (C, ph) ← A.qk.evolution m
  let st ← saPrep ref
  let q ← (Computer.init A.nqb).setState st
  let q ← q.applyCircuit C
  let q := q.applyConstant ph
  let w := q.coeff
  let q ← q.applyOperator A.ham
  pure (w, q.coeff)

/-- `build_sa_qk_mats()`, mrsqk.py:387-473 -/
noncomputable def saMats (A : MrsqkAlg) (refs : List (List (Option ℝ × List ℕ))) : Except Exc (NMat × NMat) := do
  let l ← (refs.flatMap fun ref => (List.range (A.s + 1)).map fun m => (ref, m)).mapM fun x => A.saOmega x.1 x.2
  QkAlg.fillUpper (l.map Prod.fst) (l.map Prod.snd) (refs.length * (A.s + 1))

/-- the references a run ends up with: determinants, or spin-adapted references -/
inductive Refs where
  | dets (l : List (List ℕ))
  | sa (l : List (List (Option ℝ × List ℕ)))

/-- the first part of `run()`: check the options, run SRQK and build the references, mrsqk.py:153-192 and 474-477 -/
noncomputable def references (fuel : ℕ) (eig : EigOracle) (A : MrsqkAlg) : Except Exc (ℤ × Refs) :=
  if A.statePrepType ≠ "occupation_list" then .error .valueError
  else if A.referenceGenerator ≠ "SRQK" then .error .valueError
  else do
    let U ← buildRefprep A.ref
    let (om, R) ← (A.srqk U).srqkFull eig 0 true
    let dets ← A.buildRefs R om
    match A.targetRoot with
    | none => .error .notImplemented
    | some t =>
      if A.useSa then do
        let sa ← A.buildSaRefs fuel eig t dets
        pure (t, .sa sa)
      else pure (t, .dets dets)

/-- `MRSQK.run(...)`, mrsqk.py:127-194 -/
noncomputable def run (fuel : ℕ) (eig : EigOracle) (A : MrsqkAlg) : Except Exc QsdResult := do
  let (t, refs) ← A.references fuel eig
  match refs with
  | .dets l => do
    let M ← A.qk.mrsqkMats l
    qsdFull eig A.diagEach (l.length * (A.s + 1)) t M
  | .sa l => do
    let M ← A.saMats l
    qsdFull eig A.diagEach (l.length * (A.s + 1)) t M

end MrsqkAlg

end QF
