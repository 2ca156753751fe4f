import Verif.Model.Circuit

/-!
Model of `helper/advance_gates_helper.py`.
-/
namespace QF

/-- `Toffoli(i, j, k)`, advance_gates_helper.py:13-48 -/
noncomputable def toffoli (i j k : ℕ) : Except Exc Circuit := do
  let T1 ← pyGate2 "T" i i
  let T2 ← pyGate2 "T" j j
  let T3 ← pyGate2 "T" k k
  let C12 ← pyGate2 "cX" j i
  let C13 ← pyGate2 "cX" k i
  let C23 ← pyGate2 "cX" k j
  let H3 ← pyGate2 "H" k k
  pure ([H3, C23, T3.adjoint, C13, T3, C23, T3.adjoint, C13, T2, T3, C12, H3, T1, T2.adjoint, C12].foldl Circuit.addGate [])

/-- `Fredkin(i, j, k)`, advance_gates_helper.py:51-75 -/
noncomputable def fredkin (i j k : ℕ) : Except Exc Circuit := do
  let C12 ← pyGate2 "cX" j i
  let C32 ← pyGate2 "cX" j k
  let CV23 ← pyGate2 "cV" k j
  let CV13 ← pyGate2 "cV" k i
  pure ([C32, CV23, CV13, C12, CV23.adjoint, C32, C12].foldl Circuit.addGate [])

end QF
