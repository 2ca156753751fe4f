import Verif.Model.ComputerOps
import Verif.Model.Circuit

/-!
Model of `utils/qft.py`.  Qubit numbers are natural numbers; floating point is exact.
-/
namespace QF

/-- the loop of H and controlled-phase gates, qft.py:18-23.  `lens = nb - na + 1` is `≤ 0` (no iterations) when `nb < na`. -/
noncomputable def qftLoop (na lens : ℕ) : Except Exc Circuit :=
  (List.range lens).foldlM (fun c j => do
    let h ← pyGate2 "H" (j + na) (j + na)
    (List.range' 2 (lens + 1 - j - 2)).foldlM (fun c k => do
      let g ← pyGate3 "cR" (j + na) (j + k - 1 + na) ((2 * Real.pi / 2 ^ k : ℝ) : ℂ)
      pure (Circuit.addGate c g)) (Circuit.addGate c h)) []

/-- the reversing circuit, qft.py:27-31 -/
noncomputable def qftSwaps (na lens : ℕ) (c : Circuit) : Except Exc Circuit :=
  (List.range (if lens % 2 = 0 then lens / 2 else (lens - 1) / 2)).foldlM (fun c i => do
    let g ← pyGate2 "SWAP" (i + na) (lens - 1 - i + na)
    pure (Circuit.addGate c g)) c

/-- `qft_circuit`, qft.py:5-40 -/
noncomputable def qftCircuit (na nb : ℕ) (direct : String) : Except Exc Circuit := do
  let lens := nb + 1 - na
  let c1 ← qftLoop na lens
  let c ← qftSwaps na lens c1
  if direct = "forward" then pure c
  else if direct = "reverse" then pure c.adjoint
  else .error .valueError

/-- `qft`, qft.py:43-65; the loop `for a in coeff_: a *= …` rebinds a local name and changes nothing -/
noncomputable def Computer.qft (q : Computer) (na nb : ℕ) : Except Exc Computer := do
  let c ← qftCircuit na nb "forward"
  q.applyCircuit c

/-- `rev_qft`, qft.py:68-91 -/
noncomputable def Computer.revQft (q : Computer) (na nb : ℕ) : Except Exc Computer := do
  let c ← qftCircuit na nb "reverse"
  q.applyCircuit c.adjoint

end QF
