import Verif.Model.Computer
import Verif.Spec.GateDen

/-!
Specification layer: the state a `Computer` holds, and the conditions under which gate application is exact.
-/
namespace QF

/-- amplitudes stored in a coefficient vector (0 outside) -/
def vec (l : List ℂ) : St := fun i => l.getD i 0

/-- the state of a `Computer` between API calls: as left by the constructor and preserved by gate
application -/
structure Computer.WF (q : Computer) : Prop where
  nbasis : q.nbasis = 2 ^ q.nqubit
  len : q.coeff.length = 2 ^ q.nqubit
  new : q.newCoeff = List.replicate (2 ^ q.nqubit) 0

/-- amplitudes of the state held by a `Computer` -/
def Computer.psi (q : Computer) : St := vec q.coeff

/-- entrywise distance at most the compute threshold `1e-16` -/
def Near (m' m : Mat4) : Prop := ∀ i j, ‖m' i j - m i j‖ ≤ 1e-16

/-- no non-zero entry is below the compute threshold -/
def Resolved (m : Mat4) : Prop := ∀ i j, m i j ≠ 0 → 1e-16 < ‖m i j‖

/-- hypothesis excluding the mis-parsed comparison `op_0_1 == op_1_0 == 1.0` -/
def NoSwapBug (m00 m01 m10 m11 : ℂ) : Prop := ‖m00‖ + ‖m11‖ ≤ 1e-16 → m01 = m10 → m01 = 1

/-- the gate is not routed into the mis-parsed `op_0_1 == op_1_0 == 1.0` branch with a wrong result:
if the acting 2×2 block has (numerically) no diagonal and equal off-diagonal entries, they are 1 -/
def FastOK (g : Gate) : Prop :=
  (g.target = g.control → NoSwapBug (g.mat 0 0) (g.mat 0 1) (g.mat 1 0) (g.mat 1 1)) ∧
  (g.target ≠ g.control → NoSwapBug (g.mat 2 2) (g.mat 2 3) (g.mat 3 2) (g.mat 3 3))

/-- gates for which gate application is exact: unitary, not in the mis-parsed branch, no non-zero entry
below the compute threshold -/
structure ExactGate (g : Gate) : Prop where
  unitary : MatUnitary g.target g.control g.mat
  fast : FastOK g
  resolved : Resolved g.mat

end QF
