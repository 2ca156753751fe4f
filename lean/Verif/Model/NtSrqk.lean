import Verif.Model.MRSQK

/-!
Model of `run` of `qkd/nt_srqk.py` (class `NTSRQK`).
-/
namespace QF

/-- `NTSRQK.run(s, dt, target_root, diagonalize_each_step)`, nt_srqk.py:46-68, 171-180, with `common_run()`, qsdabc.py:87-115; `fast=False` is refused.  Simplification: the leading
blocks that `diagonalize_each_step=True` solves after every state are taken from the complete matrices, which have the same entries there. -/
noncomputable def QkAlg.ntsrqkRun (expm : ExpmOracle) (eig : EigOracle) (fast : Bool) (A : QkAlg) (targetRoot : ℤ) (each : Bool) : Except Exc QsdResult :=
  if ¬ fast then .error .valueError else do
    let M ← A.ntsrqkMats expm
    qsdFull eig each A.nstates targetRoot M

end QF
