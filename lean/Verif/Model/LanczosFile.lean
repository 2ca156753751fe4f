import Verif.Model.QITE
import Verif.Model.SummaryFile

/-!
Model of what `QITE.do_qlanczos` writes to `lanczos_summary.dat` (`print_summary_file=True`), `ite/qite.py`.

As for `summary.dat`: the file is opened with `buffering=1` and every text contains a newline.  `cond k S` is the text `f"{np.linalg.cond(S[0:k, 0:k]):7.2e}"`.
-/
namespace QF

def lanczosHead : Text := '#' :: (padLeft 7 "Beta" ++ padLeft 7 "k(S)" ++ padLeft 19 "E(Npar)")

/-- the line of qite.py:484-486 -/
noncomputable def lanczosRow (F : NumFmt) (beta : ℝ) (cond : Text) (E : ℝ) : Text :=
  F.real "7.3f" beta ++ " ".toList ++ cond ++ "    ".toList ++ F.real "+15.9f" E ++ " ".toList

/-- the loop of `do_qlanczos`, qite.py:465-486, as far as the file is concerned: the contents, the position of the handle, and the exception that ends it -/
noncomputable def lanczosLoop (F : NumFmt) (cond : ℕ → NMat → Text) (eig : EigOracle) (A : QiteAlg) (st : QiteState) :
    List ℕ → (NMat × NMat) × List ℂ → Text → ℕ → Text × Option Exc
  | [], _, file, _ => (file, none)
  | m :: ms, s, file, pos =>
    match QiteAlg.lanczosStep eig st s m with
    | .error e => (file, some e)
    | .ok s =>
      let row := lanczosRow F ((m : ℝ) * A.lanczosGap * A.db) (cond (m + 1) s.1.1) (s.2.headD 0).re ++ ['\n']
      lanczosLoop F cond eig A st ms s (writeAt file pos row) (pos + row.length)

/-- the file `do_qlanczos()` leaves, qite.py:459-489 -/
noncomputable def lanczosFile (F : NumFmt) (cond : ℕ → NMat → Text) (eig : EigOracle) (A : QiteAlg) (st : QiteState) : Text × Option Exc :=
  let c := writeAt [] 0 (lanczosHead ++ ['\n'])
  let c := writeAt c (lanczosHead.length + 1) ('#' :: ruling ++ ['\n'])
  lanczosLoop F cond eig A st (List.range st.lvecs.length) (zeroMats, []) c (lanczosHead.length + 1 + (ruling.length + 2))

end QF
