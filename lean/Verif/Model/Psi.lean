import Verif.Model.System

/-!
Model of `create_psi_mol` (adapters/molecule_adapters.py) after the calls to psi4: the input is what psi4 returns.
-/
namespace QF

/-- what `create_psi_mol` reads from psi4: nuclear repulsion, number of molecular orbitals, one- and two-electron integrals
(Mulliken notation) over the molecular orbitals, and per irrep: frozen core orbitals, frozen virtual orbitals, energies of the active orbitals,
alpha and beta occupations (0.0 or 1.0 in psi4, here the result of `int`).  `pointGroup` is `symmetry_from_input().lower()`. -/
structure PsiData where
  enuc : ℝ
  nmo : ℕ
  oei : ℕ → ℕ → ℝ
  tei : ℕ → ℕ → ℕ → ℕ → ℝ
  frzcpi : List ℕ
  frzvpi : List ℕ
  epsActive : List (List ℝ)
  occA : List (List ℕ)
  occB : List (List ℕ)
  pointGroup : String

/-- molecule_adapters.py:133: `frzcpi().sum()` -/
def PsiData.frozenCore (D : PsiData) : ℕ := D.frzcpi.sum
/-- molecule_adapters.py:134: `frzvpi().sum()` -/
def PsiData.frozenVirtual (D : PsiData) : ℕ := D.frzvpi.sum

/-- `range(frozen_core, nmo - frozen_virtual)` -/
def PsiData.active (D : PsiData) : List ℕ := List.range' D.frozenCore (D.nmo - D.frozenVirtual - D.frozenCore)

/-- molecule_adapters.py:137-140: the pairs `[orbital, irrep]` -/
def PsiData.orbitals (D : PsiData) : List (ℝ × ℕ) := (D.epsActive.zipIdx.map fun b => b.1.map fun e => (e, b.2)).flatten

open Classical in
/-- `orbitals.sort()`, molecule_adapters.py:142: python compares the pairs lexicographically -/
noncomputable def sortOrbitals (l : List (ℝ × ℕ)) : List (ℝ × ℕ) := l.mergeSort fun a b => decide (a.1 < b.1 ∨ (a.1 = b.1 ∧ a.2 ≤ b.2))

/-- `l[i]` for a non-negative index -/
def pyAt {α : Type} (l : List α) (i : ℕ) : Except Exc α := match l[i]? with
  | some a => .ok a
  | none => .error .indexError

/-- the variables of the loop at molecule_adapters.py:149-154 -/
structure PsiRef where
  count : List ℕ
  reference : List ℕ
  energies : List ℝ
  irreps : List ℕ

/-- the body of the loop, molecule_adapters.py:150-154 -/
def psiRefStep (D : PsiData) (s : PsiRef) (o : ℝ × ℕ) : Except Exc PsiRef := do
  let blockA ← pyAt D.occA o.2
  let c ← pyAt s.count o.2
  let a ← pyAt blockA c
  let blockB ← pyAt D.occB o.2
  let b ← pyAt blockB c
  return ⟨s.count.set o.2 (c + 1), s.reference ++ [a] ++ [b], s.energies ++ [o.1], s.irreps ++ [o.2]⟩

/-- molecule_adapters.py:136-155: the reference, the orbital energies and the irreps -/
noncomputable def psiReference (D : PsiData) : Except Exc PsiRef := (sortOrbitals D.orbitals).foldlM (psiRefStep D) ⟨D.frzcpi, [], [], []⟩

/-- molecule_adapters.py:163-172: the energy of the frozen core -/
noncomputable def frozenCoreEnergy (D : PsiData) : ℝ :=
  if D.frozenCore > 0 then
    let e := (List.range D.frozenCore).foldl (fun e i => e + 2 * D.oei i i) 0
    (List.range D.frozenCore).foldl (fun e i => (List.range D.frozenCore).foldl (fun e j => e + (2 * D.tei i i j j - D.tei i j j i)) e) e
  else 0

/-- molecule_adapters.py:177-180: the one-electron integrals after the loop -/
noncomputable def psiOei (D : PsiData) (p q : ℕ) : ℝ :=
  if D.frozenCore > 0 ∧ p ∈ D.active ∧ q ∈ D.active then
    (List.range D.frozenCore).foldl (fun x i => x + (2 * D.tei p q i i - D.tei p i i q)) (D.oei p q)
  else D.oei p q

/-- the body of the innermost loop, molecule_adapters.py:200-210 -/
noncomputable def psiTwoTerms (D : PsiData) (i j k l : ℕ) (H : SQOperator) : SQOperator :=
  let fc := D.frozenCore
  let ia := (i - fc) * 2
  let ib := (i - fc) * 2 + 1
  let ja := (j - fc) * 2
  let jb := (j - fc) * 2 + 1
  let ka := (k - fc) * 2
  let kb := (k - fc) * 2 + 1
  let la := (l - fc) * 2
  let lb := (l - fc) * 2 + 1
  let x : ℂ := ((D.tei i l k j / 2 : ℝ) : ℂ)
  let H := if ia ≠ jb ∧ kb ≠ la then H.addTerm x [ia, jb] [kb, la] else H
  let H := if ib ≠ ja ∧ ka ≠ lb then H.addTerm x [ib, ja] [ka, lb] else H
  let H := if ia ≠ ja ∧ ka ≠ la then H.addTerm x [ia, ja] [ka, la] else H
  if ib ≠ jb ∧ kb ≠ lb then H.addTerm x [ib, jb] [kb, lb] else H

/-- molecule_adapters.py:183-210: the second-quantised Hamiltonian of the active space -/
noncomputable def psiSqHam (D : PsiData) : SQOperator :=
  let fc := D.frozenCore
  let H : SQOperator := SQOperator.addTerm [] ((D.enuc + frozenCoreEnergy D : ℝ) : ℂ) [] []
  D.active.foldl (fun H i => D.active.foldl (fun (H : SQOperator) j =>
    let H := H.addTerm (psiOei D i j : ℂ) [(i - fc) * 2] [(j - fc) * 2]
    let H := H.addTerm (psiOei D i j : ℂ) [(i - fc) * 2 + 1] [(j - fc) * 2 + 1]
    D.active.foldl (fun H k => D.active.foldl (fun H l => psiTwoTerms D i j k l H) H) H) H) H

/-- the attributes set at molecule_adapters.py:213-224, without those psi4 computes -/
structure PsiMolecule extends Molecule where
  orbEnergies : List ℝ
  frozenCoreEnergy : ℝ

/-- `create_psi_mol` after psi4's calculation, molecule_adapters.py:120-229.  `jw_transform` simplifies the operator it is
called on. -/
noncomputable def createPsiMol (o : SQOperator.DescSort) (D : PsiData) : Except Exc PsiMolecule := do
  let s ← psiReference D
  let irreps ← irrepsOfPointGroups D.pointGroup
  let orbIrreps ← s.irreps.mapM (pyAt irreps)
  let (Q, R) ← (psiSqHam D).jwTransform o false
  return ⟨⟨(D.pointGroup, irreps), orbIrreps, s.irreps, s.reference, R, Q⟩, s.energies, frozenCoreEnergy D⟩

end QF
