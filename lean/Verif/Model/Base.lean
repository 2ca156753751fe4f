/-!
Model layer: outcomes of API calls.
-/
namespace QF

/-- Ways an API call can fail.  The C++ exception classes thrown by qforte (`std::runtime_error`,
`std::invalid_argument`, `std::out_of_range` from `.at`), the Python exceptions, and
`undefinedBehaviour` for an out-of-range `std::vector` access. -/
inductive Exc where
  | runtimeError
  | invalidArgument
  | outOfRange
  | undefinedBehaviour
  | diverges
  | typeError
  | valueError
  | notImplemented
  | keyError
  | indexError
  | nameError
  | attributeError
  | assertionError
  | zeroDivisionError
  | exception
  deriving DecidableEq, Repr

end QF
