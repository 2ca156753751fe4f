import Verif.Model.Computer
import Verif.Model.QubitOperator

/-!
Model of `src/qforte/computer.{h,cc}`: state setting, whole-vector operations.
-/
namespace QF

/-- `apply_constant`, computer.cc:130-133 -/
noncomputable def Computer.applyConstant (q : Computer) (a : ℂ) : Computer := { q with coeff := q.coeff.map fun z => z * a }

/-- `set_coeff_vec`, computer.h:132: no size check -/
def Computer.setCoeffVec (q : Computer) (v : List ℂ) : Computer := { q with coeff := v }

/-- `null_state`, computer.cc:49 -/
noncomputable def Computer.nullState (q : Computer) : Computer := { q with coeff := q.coeff.map fun _ => 0 }

/-- `set_state`, computer.cc:42-47; a `QubitBasis` is its index -/
noncomputable def Computer.setState (q : Computer) (st : List (ℕ × ℂ)) : Except Exc Computer := do
  let l ← st.foldlM (fun l b => wr l b.1 b.2) (q.coeff.map fun _ => (0 : ℂ))
  pure { q with coeff := l }

/-- `reset`, computer.cc:51-54 -/
noncomputable def Computer.reset (q : Computer) : Except Exc Computer := do
  let l ← wr (q.nullState).coeff 0 1
  pure { q with coeff := l }

/-- `coeff(basis)`, computer.cc:40 -/
def Computer.coeffAt (q : Computer) (I : ℕ) : Except Exc ℂ := rd q.coeff I

/-- `apply_matrix`, computer.cc:56-66.  `std::inner_product` is called with `complex_prod` (computer.h:9-13),
which conjugates its first argument, the matrix entry. -/
noncomputable def Computer.applyMatrix (q : Computer) (M : List (List ℂ)) : Except Exc Computer := do
  let res ← (List.range q.nbasis).mapM fun I =>
    match M[I]? with
    | none => .error .undefinedBehaviour
    | some row => innerProd 0 row q.coeff
  pure { q with coeff := res }

/-- `std::transform(result.begin(), result.end(), coeff_.begin(), result.begin(), add_c)` -/
noncomputable def addVec : List ℂ → List ℂ → Except Exc (List ℂ)
  | [], _ => .ok []
  | _ :: _, [] => .error .undefinedBehaviour
  | a :: r, b :: c => do
    let l ← addVec r c
    pure ((a + b) :: l)

/-- `apply_operator`, computer.cc:80-91 -/
noncomputable def Computer.applyOperator (q : Computer) (A : QubitOperator) : Except Exc Computer := do
  let old := q.coeff
  let (q, res) ← A.foldlM (fun (s : Computer × List ℂ) t => do
      let q1 ← s.1.applyCircuit t.2
      let q2 := q1.applyConstant t.1
      let r ← addVec s.2 q2.coeff
      pure ({ q2 with coeff := old }, r)) (q, List.replicate q.nbasis 0)
  pure { q with coeff := res }

/-- `operator==(Computer, Computer)`, computer.cc:968-973 -/
noncomputable def Computer.beq (a b : Computer) : Bool := open Classical in
  if a.nqubit ≠ b.nqubit then false else decide (a.coeff = b.coeff)

end QF
