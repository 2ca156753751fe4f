import Mathlib.Data.List.Basic
import Mathlib.Data.Int.Notation

/-!
The character tables of the abelian point groups D2h and its subgroups (Cotton, *Chemical Applications of Group Theory*),
independent of the model.  Each row is an irreducible representation with its characters on the elements of the group,
in the order E, C2(z), C2(y), C2(x), i, σ(xy), σ(xz), σ(yz) for D2h and the corresponding suborders
(C2h: E, C2, i, σh; C2v: E, C2, σv(xz), σv'(yz)).  `Ap`, `App` are A', A''.
-/
namespace QF.Character

/-- the character table of a point group, by lower-case Schoenflies symbol -/
def table : String → List (String × List ℤ)
  | "c1" => [("A", [1])]
  | "c2" => [("A", [1, 1]), ("B", [1, -1])]
  | "ci" => [("Ag", [1, 1]), ("Au", [1, -1])]
  | "cs" => [("Ap", [1, 1]), ("App", [1, -1])]
  | "d2" => [("A", [1, 1, 1, 1]), ("B1", [1, 1, -1, -1]), ("B2", [1, -1, 1, -1]), ("B3", [1, -1, -1, 1])]
  | "c2h" => [("Ag", [1, 1, 1, 1]), ("Bg", [1, -1, 1, -1]), ("Au", [1, 1, -1, -1]), ("Bu", [1, -1, -1, 1])]
  | "c2v" => [("A1", [1, 1, 1, 1]), ("A2", [1, 1, -1, -1]), ("B1", [1, -1, 1, -1]), ("B2", [1, -1, -1, 1])]
  | "d2h" => [("Ag", [1, 1, 1, 1, 1, 1, 1, 1]), ("B1g", [1, 1, -1, -1, 1, 1, -1, -1]),
      ("B2g", [1, -1, 1, -1, 1, -1, 1, -1]), ("B3g", [1, -1, -1, 1, 1, -1, -1, 1]),
      ("Au", [1, 1, 1, 1, -1, -1, -1, -1]), ("B1u", [1, 1, -1, -1, -1, -1, 1, 1]),
      ("B2u", [1, -1, 1, -1, -1, 1, -1, 1]), ("B3u", [1, -1, -1, 1, -1, 1, 1, -1])]
  | _ => []

/-- the supported groups -/
def groups : List String := ["c1", "c2", "ci", "cs", "d2", "c2h", "c2v", "d2h"]

/-- the characters of the irrep named `s` in group `g` -/
def chars (g s : String) : List ℤ := ((table g).lookup s).getD []

/-- the characters of a direct product -/
def prod (a b : List ℤ) : List ℤ := List.zipWith (· * ·) a b

/-- the characters of the totally symmetric representation -/
def trivial (g : String) : List ℤ := List.replicate (table g).length 1

end QF.Character
