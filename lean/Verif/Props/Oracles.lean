import Verif.Model.SQOperator
import Verif.Model.Measure
import Verif.Model.QubitOperator
import Mathlib.Data.List.Sort

/-!
The oracles standing for `std::sort` and OpenMP scheduling exist, so no theorem quantifying over them is vacuous.
-/
namespace QF

noncomputable def SQOperator.DescSort.some : SQOperator.DescSort where
  perm l := (List.range l.length).mergeSort fun i j => decide (l.getD j 0 ≤ l.getD i 0)
  isPerm l := List.mergeSort_perm _ _
  sorted l := by
    have := List.pairwise_mergeSort (le := fun i j => decide (l.getD j 0 ≤ l.getD i 0))
      (by intro a b c h1 h2; simp only [decide_eq_true_eq] at *; omega)
      (by intro a b; simp only [Bool.or_eq_true, decide_eq_true_eq]; omega) (List.range l.length)
    exact this.imp (by intro a b h; simpa using h)

example : Nonempty SQOperator.DescSort := ⟨SQOperator.DescSort.some⟩
example : Nonempty QubitOperator.SortOracle := ⟨⟨fun l => List.range l.length, fun _ => List.Perm.refl _⟩⟩
/-- one thread -/
example : Nonempty Schedule := ⟨⟨fun n => [List.range n], fun n => by simp⟩⟩
/-- one iteration per thread, in reverse -/
example : Nonempty Schedule := ⟨⟨fun n => (List.range n).reverse.map fun i => [i], fun n => by
  rw [← List.flatMap_def]; simp [List.reverse_perm]⟩⟩

end QF
