import Verif.Model.Gate

/-!
Which `Gate` values a user can hold: python exposes no `Gate` constructor (bindings.cc:193-218), only
`gate(...)`, `control_gate`, `Gate.adjoint` and `Gate.update_parameter` (which calls `make_gate`).
-/
namespace QF

/-- gates reachable through the API with `control_gate` applied to one-qubit gates -/
inductive ApiGate : Gate → Prop
  | make {ty : String} {t c : ℕ} {θ : ℝ} {g : Gate} : makeGate ty t c θ = .ok g → ApiGate g
  | adj {g : Gate} : ApiGate g → ApiGate g.adjoint
  | ctrl {u g : Gate} {c : ℕ} : ApiGate u → u.target = u.control → makeControlGate c u = .ok g → ApiGate g

/-- all gates reachable through the API (including `control_gate` of a two-qubit gate) -/
inductive ApiGateAny : Gate → Prop
  | make {ty : String} {t c : ℕ} {θ : ℝ} {g : Gate} : makeGate ty t c θ = .ok g → ApiGateAny g
  | adj {g : Gate} : ApiGateAny g → ApiGateAny g.adjoint
  | ctrl {u g : Gate} {c : ℕ} : ApiGateAny u → makeControlGate c u = .ok g → ApiGateAny g

theorem ApiGate.any {g : Gate} (h : ApiGate g) : ApiGateAny g := by
  induction h with
  | make h => exact .make h
  | adj _ ih => exact .adj ih
  | ctrl _ _ h ih => exact .ctrl ih h

end QF
