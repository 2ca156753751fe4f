import Verif.Model.Base
import Verif.Spec.SummaryFile
import Mathlib.Data.List.Basic

/-!
Model of what the algorithms write to `summary.dat` (`print_summary_file=True`): `abc/uccvqeabc.py`, `abc/uccpqeabc.py` (`report_iteration`),
`ucc/adaptvqe.py`, `ucc/spqe.py`, `ite/qite.py`, `qkd/srqk.py`, `qkd/nt_srqk.py`.

All files are opened with `buffering=1` and every text written contains a newline, so that every `write` reaches the file at once.  What is written
depends on the numbers the algorithms compute; these are parameters (every run is one choice of them).  Texts printed to the screen are left out.
-/
namespace QF

/-- Python's format specifications: the texts `f"{x:spec}"` of numbers -/
structure NumFmt where
  real : String → ℝ → Text
  nat : String → ℤ → Text

/-- `f"{s:>w}"` -/
def padLeft (w : ℕ) (s : String) : Text := List.replicate (w - s.toList.length) ' ' ++ s.toList

def ruling : Text := List.replicate 79 '-'

/-- `f.write(s)` of a handle at position `pos`: a gap is filled with null characters -/
def writeAt (c : Text) (pos : ℕ) (s : Text) : Text :=
  c.take pos ++ List.replicate (pos - c.length) '\x00' ++ s ++ c.drop (pos + s.length)

/-- what `report_iteration` sees -/
structure Obs where
  /-- `self._curr_energy` -/
  energy : ℝ
  /-- `self._res_vec_evals`, `self._res_m_evals` -/
  vecEvals : ℕ
  mEvals : ℕ
  /-- `self._res_vec_norm`, `self._curr_grad_norm` -/
  norm : ℝ

/-- `self._k_counter`, `self._prev_energy` and the file `summary.dat`, if there is one -/
structure Rep where
  k : ℕ
  prev : ℝ
  file : Option Text

/-- the two header lines of uccpqeabc.py:77-84 -/
def pqeHead1 : Text := "#    k iteration         Energy               dE           Nrvec ev      Nrm ev*         ||r||".toList
def pqeHead2 : Text := '#' :: List.replicate 98 '-'

/-- the line of uccpqeabc.py:94-96 -/
def pqeRow (F : NumFmt) (k : ℕ) (E dE : ℝ) (vec m : ℕ) (norm : ℝ) : Text :=
  "       ".toList ++ F.nat "7" k ++ "        ".toList ++ F.real "+12.12f" E ++ "      ".toList ++ F.real "+12.12f" dE ++ "      ".toList ++ F.nat "4" vec ++
    "        ".toList ++ F.nat "6" m ++ "       ".toList ++ F.real "+12.12f" norm

/-- `UCCPQE.report_iteration(x)`, uccpqeabc.py:63-99; `o.energy` is `energy_feval(x)`.  The file is opened anew for every write. -/
noncomputable def reportPqe (F : NumFmt) (print : Bool) (s : Rep) (o : Obs) : Rep × Option Exc :=
  let k := s.k + 1
  let file := if k = 1 ∧ print then some ('\n' :: pqeHead1 ++ ('\n' :: pqeHead2)) else s.file
  let file := if print then some (file.getD [] ++ ('\n' :: pqeRow F k o.energy (o.energy - s.prev) o.vecEvals o.mEvals o.norm)) else file
  (⟨k, o.energy, file⟩, none)

/-- `header`, uccvqeabc.py:304-309 -/
def vqeHeader (analytic : Bool) : Text :=
  "\n    k iteration         Energy               dE".toList ++ (if analytic then "           Ngvec ev      Ngm ev*         ||g||".toList else []) ++
    ('\n' :: List.replicate 54 '-') ++ if analytic then List.replicate 44 '-' else []

/-- `UCCVQE.report_iteration(x)`, uccvqeabc.py:300-328.  `header` is a local variable that is assigned in the first call only; `header.replace(…)` has no
effect; the text `update` is computed and not written. -/
noncomputable def reportVqe (print analytic : Bool) (s : Rep) (o : Obs) : Rep × Option Exc :=
  let k := s.k + 1
  let header := if k = 1 then some (vqeHeader analytic) else none
  let file := if k = 1 ∧ print then header else s.file
  if print then
    match header with
    | none => (⟨k, s.prev, some (file.getD [])⟩, some .nameError)
    | some h => (⟨k, o.energy, some (file.getD [] ++ h)⟩, none)
  else (⟨k, o.energy, file⟩, none)

/-- the callbacks of one call of `scipy.optimize.minimize`; an exception ends it -/
def runCalls (step : Rep → Obs → Rep × Option Exc) (s : Rep) : List Obs → Rep × Option Exc
  | [] => (s, none)
  | o :: os => match step s o with
    | (s, none) => runCalls step s os
    | r => r

/-- one macro-iteration of ADAPT-VQE or SPQE: `self._prev_energy` and the callbacks of `solve()` (none with the Jacobi solver), and what is written
afterwards: `self._energies[-1]`, `len(self._tamps)`, `self._n_cnot_lst[-1]`, `sum(self._n_pauli_trm_measures_lst)` -/
structure Macro where
  start : ℝ
  calls : List Obs
  energy : ℝ
  params : ℕ
  cnot : ℤ
  measures : ℕ

/-- the header of adaptvqe.py:155-160, spqe.py:235-240 -/
def macroHead : Text := '#' :: (padLeft 8 "Iter(k)" ++ padLeft 14 "E(k)" ++ padLeft 17 "N(params)" ++ padLeft 18 "N(CNOT)" ++ padLeft 20 "N(measure)")

/-- the line of adaptvqe.py:184, spqe.py:262 -/
def macroRow (F : NumFmt) (k : ℕ) (m : Macro) : Text :=
  "  ".toList ++ F.nat "7" k ++ "    ".toList ++ F.real "+15.9f" m.energy ++ "    ".toList ++ F.nat "8" m.params ++ "        ".toList ++ F.nat "10" m.cnot ++
    "        ".toList ++ F.nat "12" m.measures

/-- the loop of `run()`, adaptvqe.py:162-191, spqe.py:242-264, as far as the file is concerned: `pos` is the position of the handle `f`, `k` is `avqe_iter` or
`self._spqe_iter`.  `_k_counter` is 0 at the beginning of every `solve()` (adaptvqe.py:322, optimizer.py:138). -/
noncomputable def macroLoop (F : NumFmt) (step : Rep → Obs → Rep × Option Exc) : ℕ → Text → ℕ → List Macro → Text × Option Exc
  | _, file, _, [] => (file, none)
  | k, file, pos, m :: ms =>
    match runCalls step ⟨0, m.start, some file⟩ m.calls with
    | (s, some e) => (s.file.getD [], some e)
    | (s, none) =>
      let row := macroRow F k m ++ ['\n']
      let file := writeAt (s.file.getD []) pos row
      macroLoop F step (k + 1) file (pos + row.length) ms

/-- the file of a run, adaptvqe.py:153-194, spqe.py:233-267 -/
noncomputable def macroFile (F : NumFmt) (step : Rep → Obs → Rep × Option Exc) (first : ℕ) (ms : List Macro) : Text × Option Exc :=
  let c := writeAt [] 0 (macroHead ++ ['\n'])
  let c := writeAt c (macroHead.length + 1) ('#' :: ruling ++ ['\n'])
  macroLoop F step first c (macroHead.length + 1 + (ruling.length + 2)) ms

/-- `ADAPTVQE.run()`, adaptvqe.py:153-194 -/
noncomputable def adaptFile (F : NumFmt) (analytic : Bool) (ms : List Macro) : Text × Option Exc := macroFile F (reportVqe true analytic) 0 ms

/-- `SPQE.run()`, spqe.py:231-267 -/
noncomputable def spqeFile (F : NumFmt) (ms : List Macro) : Text × Option Exc := macroFile F (reportPqe F true) 1 ms

/-- texts written one after the other to a handle opened with `"w+"` -/
def writeAll (ts : List Text) : Text := (ts.foldl (fun (s : Text × ℕ) t => (writeAt s.1 s.2 t, s.2 + t.length)) ([], 0)).1

/-- a line of the tables of `QITE.evolve` and `SRQK.build_qk_mats_fast` -/
structure TabRow where
  /-- `kb*self._db`, or the condition number `scond` -/
  first : ℝ
  energy : ℝ
  params : ℕ
  cnot : ℤ
  measures : ℕ

def tabRow (F : NumFmt) (spec : String) (r : TabRow) : Text :=
  "  ".toList ++ F.real spec r.first ++ "    ".toList ++ F.real "+15.9f" r.energy ++ "    ".toList ++ F.nat "8" r.params ++ "        ".toList ++ F.nat "10" r.cnot ++
    "        ".toList ++ F.nat "12" r.measures

def qiteHead : Text := '#' :: (padLeft 7 "beta" ++ padLeft 18 "E(beta)" ++ padLeft 14 "N(params)" ++ padLeft 18 "N(CNOT)" ++ padLeft 20 "N(measure)")

/-- what `QITE.evolve()` has written after the steps whose lines are `rs` (the first line is that of the initial state), qite.py:402-437 -/
def qiteFile (F : NumFmt) (rs : List TabRow) : Text :=
  writeAll ((qiteHead ++ ['\n']) :: ('#' :: ruling ++ ['\n']) :: rs.map fun r => tabRow F "7.3f" r ++ ['\n'])

def qkHead : Text := padLeft 7 "k(S)" ++ padLeft 19 "E(Npar)" ++ padLeft 14 "N(params)" ++ padLeft 18 "N(CNOT)" ++ padLeft 20 "N(measure)"

/-- what `SRQK.build_qk_mats_fast()` has written after the states whose lines are `rs`, srqk.py:128-136, 187-193; without `diagonalize_each_step`
(`each`) the file is not opened: `old` is what was there -/
def srqkFile (F : NumFmt) (each : Bool) (old : Option Text) (rs : List TabRow) : Option Text :=
  if each then some (writeAll ((qkHead ++ ['\n'] ++ ruling ++ ['\n']) :: rs.map fun r => tabRow F "7.2e" r ++ ['\n'])) else old

/-- the same for `NTSRQK`, nt_srqk.py:138-146, 191-197 -/
def ntsrqkFile (F : NumFmt) (each : Bool) (old : Option Text) (rs : List TabRow) : Option Text :=
  if each then some (writeAll (('#' :: qkHead ++ ['\n']) :: ('#' :: ruling ++ ['\n']) :: rs.map fun r => tabRow F "7.2e" r ++ ['\n'])) else old

end QF
