import Verif.Model.Base
import Mathlib.Analysis.SpecialFunctions.Pow.Real
import Mathlib.Data.List.Sort
import Mathlib.Data.Complex.Basic

/-!
Model of maths/eigsolve.py (`canonical_geig_solve`) and helper/idx_org.py (`sorted_largest_idxs`).  `scipy.linalg.eig` is a parameter.
Matrices are functions of two indices; sizes are passed explicitly.
-/
namespace QF

/-- a numpy matrix; entries outside the size are never read -/
abbrev NMat := ℕ → ℕ → ℂ

/-- `A.dot(B)` for an inner dimension `k` -/
noncomputable def NMat.dot (k : ℕ) (A B : NMat) : NMat := fun i j => ∑ l ∈ Finset.range k, A i l * B l j

/-- `(A.conjugate()).transpose()` -/
noncomputable def NMat.dag (A : NMat) : NMat := fun i j => (starRingEnd ℂ) (A j i)

/-- `scipy.linalg.eig` of an `n` by `n` matrix: eigenvalues and the matrix whose columns are eigenvectors -/
abbrev EigOracle := ℕ → NMat → List ℂ × NMat

/-- `sorted_largest_idxs(array, use_real, rev)`, idx_org.py:5-36, for `use_real=True`: python's stable `sorted` of the pairs
(value, index) by the real part of the value; `rev=True` keeps the order of equal elements -/
noncomputable def sortedLargestIdxs (array : List ℂ) (rev : Bool) : List (ℂ × ℕ) :=
  open Classical in
  if rev then array.zipIdx.insertionSort (fun a b => b.1.re ≤ a.1.re) else array.zipIdx.insertionSort (fun a b => a.1.re ≤ b.1.re)

/-- `canonical_geig_solve(S, H, sort_ret_vals)`, eigsolve.py:7-110; `n` is the size of `S` and `H` -/
noncomputable def canonicalGeigSolve (eig : EigOracle) (n : ℕ) (S H : NMat) (sortRet : Bool := false) : Except Exc (List ℂ × NMat) :=
  let (s, U) := eig n S
  if open Classical in s.any (fun z => decide (z.im > 1e-12)) then .error .valueError
  else
    let sp := (open Classical in s.filter fun z => decide (z.re > 1e-15)).map Complex.re
    let X : NMat := fun i j => U i j / ((Real.sqrt (sp.getD j 0) : ℝ) : ℂ)
    let m := sp.length
    let Hp := (X.dag.dot n H).dot n X
    let (e, Cp) := eig m Hp
    if sortRet then
      let idx := (sortedLargestIdxs e false).map Prod.snd
      let se := idx.map fun i => e.getD i 0
      let sC : NMat := fun i j => Cp i (idx.getD j 0)
      let sX : NMat := fun i j => X i (idx.getD j 0)
      .ok (se, sX.dot m sC)
    else .ok (e, X.dot m Cp)

end QF
