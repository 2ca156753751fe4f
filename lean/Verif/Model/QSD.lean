import Verif.Model.Krylov

/-!
Model of `abc/qsdabc.py` (`common_run`).  Printing and the condition number are left out.
-/
namespace QF

/-- python's `l[i]` for any integer `i` -/
def pyIndexZ {α : Type} (l : List α) (i : ℤ) : Except Exc α :=
  if 0 ≤ i then (l[i.toNat]?).elim (.error .indexError) .ok
  else if -(l.length : ℤ) ≤ i then (l[(l.length + i).toNat]?).elim (.error .indexError) .ok
  else .error .indexError

/-- what `common_run` leaves in the object -/
structure QsdResult where
  /-- `self._eigenvalues` -/
  eigenvalues : List ℂ
  /-- `self._eigenvectors` -/
  eigenvectors : NMat
  /-- `self._Egs` -/
  egs : ℝ
  /-- `self._Ets` -/
  ets : ℝ

/-- `common_run()`, qsdabc.py:87-115, with the matrices `M = build_qk_mats()` of size `k` -/
noncomputable def qsdRun (eig : EigOracle) (k : ℕ) (targetRoot : ℤ) (M : NMat × NMat) : Except Exc QsdResult := do
  let (ev, C) ← canonicalGeigSolve eig k M.1 M.2 true
  let e0 ← pyIndexZ ev 0
  let et ← pyIndexZ ev targetRoot
  pure { eigenvalues := ev, eigenvectors := C, egs := e0.re, ets := et.re }

/-- `SRQK.run(s, dt, target_root)`, srqk.py:46-60 -/
noncomputable def QkAlg.srqkRun (eig : EigOracle) (A : QkAlg) (targetRoot : ℤ) : Except Exc QsdResult := do
  let M ← A.srqkMats
  qsdRun eig A.nstates targetRoot M

/-- the part of `MRSQK.run` after the references have been selected, mrsqk.py:194, for `use_spin_adapted_refs=False` (mrsqk.py:270-274) -/
noncomputable def QkAlg.mrsqkRun (eig : EigOracle) (A : QkAlg) (refs : List (List ℕ)) (targetRoot : ℤ) : Except Exc QsdResult := do
  let M ← A.mrsqkMats refs
  qsdRun eig (refs.length * A.nstates) targetRoot M

end QF
