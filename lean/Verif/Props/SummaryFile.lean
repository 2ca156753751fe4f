import Verif.Model.SummaryFile
import Mathlib.Tactic

/-!
C104: what `summary.dat` contains.
-/
namespace QF

/-- the texts of numbers contain no newline -/
structure NumFmt.Plain (F : NumFmt) : Prop where
  real : ∀ s x, '\n' ∉ F.real s x
  nat : ∀ s x, '\n' ∉ F.nat s x

theorem textLines_ne (t : Text) : textLines t ≠ [] := by
  induction t with
  | nil => simp [textLines]
  | cons c t ih =>
    unfold textLines
    by_cases h : c = '\n'
    · rw [if_pos h]; simp
    · rw [if_neg h]
      split <;> simp

theorem textLines_line {l : Text} (h : '\n' ∉ l) (t : Text) : textLines (l ++ '\n' :: t) = l :: textLines t := by
  induction l with
  | nil => simp [textLines]
  | cons c l ih =>
    have hc : c ≠ '\n' := fun e => h (by simp [e])
    have := ih fun e => h (by simp [e])
    rw [List.cons_append, textLines, if_neg hc, this]

theorem textLines_last {l : Text} (h : '\n' ∉ l) : textLines l = [l] := by
  induction l with
  | nil => simp [textLines]
  | cons c l ih =>
    have hc : c ≠ '\n' := fun e => h (by simp [e])
    have := ih fun e => h (by simp [e])
    rw [textLines, if_neg hc, this]

/-- lines, each ended by a newline -/
theorem textLines_ended {ls : List Text} (h : ∀ l ∈ ls, '\n' ∉ l) : textLines ((ls.map (· ++ ['\n'])).flatten) = ls ++ [[]] := by
  induction ls with
  | nil => simp [textLines]
  | cons l ls ih =>
    rw [List.map_cons, List.flatten_cons, List.append_assoc, List.singleton_append, textLines_line (h l (by simp)), ih fun l hl => h l (by simp [hl])]
    rfl

/-- lines, each begun by a newline -/
theorem textLines_begun {l : Text} (h0 : '\n' ∉ l) {ls : List Text} (h : ∀ l ∈ ls, '\n' ∉ l) : textLines (l ++ (ls.map ('\n' :: ·)).flatten) = l :: ls := by
  induction ls generalizing l with
  | nil => simpa using textLines_last h0
  | cons a ls ih =>
    rw [List.map_cons, List.flatten_cons, List.cons_append, textLines_line h0, ih (h a (by simp)) fun l hl => h l (by simp [hl])]

theorem writeAt_end (c s : Text) : writeAt c c.length s = c ++ s := by
  unfold writeAt
  rw [List.take_length, Nat.sub_self, List.drop_eq_nil_of_le (by omega)]
  simp

theorem writeAll_flatten (ts : List Text) : writeAll ts = ts.flatten := by
  have : ∀ (ts : List Text) (c : Text), ts.foldl (fun (s : Text × ℕ) t => (writeAt s.1 s.2 t, s.2 + t.length)) (c, c.length) = (c ++ ts.flatten, (c ++ ts.flatten).length) := by
    intro ts
    induction ts with
    | nil => intro c; simp
    | cons t ts ih =>
      intro c
      rw [List.foldl_cons]
      show List.foldl _ (writeAt c c.length t, c.length + t.length) ts = _
      rw [writeAt_end, ← List.length_append, ih]
      simp
  unfold writeAll
  have h := this ts []
  rw [List.length_nil] at h
  rw [h]; simp

theorem pqeRow_line {F : NumFmt} (hF : F.Plain) (k : ℕ) (E dE : ℝ) (v m : ℕ) (n : ℝ) : '\n' ∉ pqeRow F k E dE v m n ∧ IsData (pqeRow F k E dE v m n) := by
  constructor
  · unfold pqeRow
    simp only [List.mem_append, hF.real, hF.nat, not_or]
    decide
  · unfold pqeRow; simp [IsData]

theorem macroRow_line {F : NumFmt} (hF : F.Plain) (k : ℕ) (m : Macro) : '\n' ∉ macroRow F k m ∧ IsData (macroRow F k m) := by
  constructor
  · unfold macroRow
    simp only [List.mem_append, hF.real, hF.nat, not_or]
    decide
  · unfold macroRow; simp [IsData]

theorem tabRow_line {F : NumFmt} (hF : F.Plain) (s : String) (r : TabRow) : '\n' ∉ tabRow F s r ∧ IsData (tabRow F s r) := by
  constructor
  · unfold tabRow
    simp only [List.mem_append, hF.real, hF.nat, not_or]
    decide
  · unfold tabRow; simp [IsData]

/-- the lines of the iterations of a residual minimization: number, energy, change of the energy since the previous iteration (since the initial guess
for the first), counts and norm of the residual vector -/
noncomputable def pqeRows (F : NumFmt) (k : ℕ) (E0 : ℝ) : List Obs → List Text
  | [] => []
  | o :: os => pqeRow F k o.energy (o.energy - E0) o.vecEvals o.mEvals o.norm :: pqeRows F (k + 1) o.energy os

theorem pqeRows_line {F : NumFmt} (hF : F.Plain) (os : List Obs) : ∀ k E0, ∀ l ∈ pqeRows F k E0 os, '\n' ∉ l ∧ IsData l := by
  induction os with
  | nil => intro k E0 l hl; simp [pqeRows] at hl
  | cons o os ih =>
    intro k E0 l hl
    rcases List.mem_cons.1 hl with rfl | hl
    · exact pqeRow_line hF ..
    · exact ih _ _ l hl

/-- line `i` (from 0) is that of iteration `i + 1` -/
theorem pqeRows_get (F : NumFmt) (os : List Obs) : ∀ (k : ℕ) (E0 : ℝ) (i : ℕ) (o : Obs), os[i]? = some o →
    (pqeRows F k E0 os)[i]? = some (pqeRow F (k + i) o.energy (o.energy - (E0 :: os.map Obs.energy).getD i 0) o.vecEvals o.mEvals o.norm) := by
  induction os with
  | nil => intro k E0 i o h; simp at h
  | cons a os ih =>
    intro k E0 i o h
    cases i with
    | zero => simp only [List.getElem?_cons_zero, Option.some.injEq] at h; subst h; simp [pqeRows]
    | succ i =>
      have := ih (k + 1) a.energy i o (by simpa using h)
      simp only [pqeRows, List.getElem?_cons_succ, List.map_cons, List.getD_cons_succ]
      rw [this]; congr 2; omega

theorem pqe_more (F : NumFmt) (os : List Obs) : ∀ (k : ℕ) (E0 : ℝ) (t : Text), 1 ≤ k →
    ∃ E, runCalls (reportPqe F true) ⟨k, E0, some t⟩ os = (⟨k + os.length, E, some (t ++ ((pqeRows F (k + 1) E0 os).map ('\n' :: ·)).flatten)⟩, none) := by
  induction os with
  | nil => intro k E0 t _; exact ⟨E0, by simp [runCalls, pqeRows]⟩
  | cons o os ih =>
    intro k E0 t hk
    obtain ⟨E, h⟩ := ih (k + 1) o.energy (t ++ ('\n' :: pqeRow F (k + 1) o.energy (o.energy - E0) o.vecEvals o.mEvals o.norm)) (by omega)
    have hs : reportPqe F true ⟨k, E0, some t⟩ o =
        (⟨k + 1, o.energy, some (t ++ ('\n' :: pqeRow F (k + 1) o.energy (o.energy - E0) o.vecEvals o.mEvals o.norm))⟩, none) := by
      unfold reportPqe
      simp [show k ≠ 0 by omega]
    refine ⟨E, ?_⟩
    rw [runCalls, hs]
    simp only
    rw [h]
    simp only [pqeRows, List.length_cons, List.map_cons, List.flatten_cons, List.append_assoc, Prod.mk.injEq, Rep.mk.injEq, and_true]
    omega

/-- C104, residual minimization with SciPy (UCCN-PQE): after any number of iterations but none the file consists of an empty line, two comment lines and the
lines of the iterations so far, whatever it contained before. -/
theorem C104_pqe (F : NumFmt) (hF : F.Plain) (E0 : ℝ) (old : Option Text) (os : List Obs) (h : os ≠ []) :
    ∃ E t, runCalls (reportPqe F true) ⟨0, E0, old⟩ os = (⟨os.length, E, some t⟩, none) ∧ textLines t = [] :: pqeHead1 :: pqeHead2 :: pqeRows F 1 E0 os ∧
      dataLines t = pqeRows F 1 E0 os := by
  obtain ⟨o, os, rfl⟩ := List.exists_cons_of_ne_nil h
  obtain ⟨E, h1⟩ := pqe_more F os 1 o.energy ('\n' :: pqeHead1 ++ ('\n' :: pqeHead2) ++ ('\n' :: pqeRow F 1 o.energy (o.energy - E0) o.vecEvals o.mEvals o.norm)) le_rfl
  have hs : reportPqe F true ⟨0, E0, old⟩ o = (⟨1, o.energy, some ('\n' :: pqeHead1 ++ ('\n' :: pqeHead2) ++ ('\n' :: pqeRow F 1 o.energy (o.energy - E0) o.vecEvals o.mEvals o.norm))⟩, none) := by
    unfold reportPqe
    simp
  have hh : '\n' ∉ pqeHead1 ∧ '\n' ∉ pqeHead2 := by decide
  have hl : textLines ('\n' :: pqeHead1 ++ ('\n' :: pqeHead2) ++ ('\n' :: pqeRow F 1 o.energy (o.energy - E0) o.vecEvals o.mEvals o.norm) ++
      ((pqeRows F 2 o.energy os).map ('\n' :: ·)).flatten) = [] :: pqeHead1 :: pqeHead2 :: pqeRows F 1 E0 (o :: os) := by
    have := textLines_begun (l := []) (by simp) (ls := pqeHead1 :: pqeHead2 :: pqeRows F 1 E0 (o :: os)) (by
      intro l hl
      rcases List.mem_cons.1 hl with rfl | hl
      · exact hh.1
      rcases List.mem_cons.1 hl with rfl | hl
      · exact hh.2
      · exact (pqeRows_line hF _ _ _ l hl).1)
    rw [← this]
    simp [pqeRows]
  refine ⟨E, _, ?_, hl, ?_⟩
  · rw [runCalls, hs]
    simp only
    rw [h1]
    simp only [Prod.mk.injEq, Rep.mk.injEq, and_true, List.length_cons]
    omega
  · rw [dataLines, hl, List.filter_cons_of_neg (by decide), List.filter_cons_of_neg (by decide), List.filter_cons_of_neg (by decide), List.filter_eq_self]
    intro l hl
    simpa using (pqeRows_line hF _ _ _ l hl).2

/-- C104: without an iteration, and without `print_summary_file`, the file stays as it was. -/
theorem C104_untouched (F : NumFmt) (s : Rep) (os : List Obs) (an : Bool) : runCalls (reportPqe F true) s [] = (s, none) ∧ runCalls (reportVqe true an) s [] = (s, none) ∧
    (runCalls (reportPqe F false) s os).1.file = s.file ∧ (runCalls (reportPqe F false) s os).2 = none ∧
    (runCalls (reportVqe false an) s os).1.file = s.file ∧ (runCalls (reportVqe false an) s os).2 = none := by
  refine ⟨rfl, rfl, ?_⟩
  have h1 : ∀ (os : List Obs) s, (runCalls (reportPqe F false) s os).1.file = s.file ∧ (runCalls (reportPqe F false) s os).2 = none := by
    intro os
    induction os with
    | nil => intro s; exact ⟨rfl, rfl⟩
    | cons o os ih =>
      intro s
      have := ih ⟨s.k + 1, o.energy, s.file⟩
      rw [runCalls]
      simpa [reportPqe] using this
  have h2 : ∀ (os : List Obs) s, (runCalls (reportVqe false an) s os).1.file = s.file ∧ (runCalls (reportVqe false an) s os).2 = none := by
    intro os
    induction os with
    | nil => intro s; exact ⟨rfl, rfl⟩
    | cons o os ih =>
      intro s
      have := ih ⟨s.k + 1, o.energy, s.file⟩
      rw [runCalls]
      simpa [reportVqe] using this
  exact ⟨(h1 os s).1, (h1 os s).2, (h2 os s).1, (h2 os s).2⟩

/-- C104, refuted for VQE (finding F81): the second iteration of every minimization with `print_summary_file=True` fails with `UnboundLocalError`; by then the
file contains the header twice and no line of data of an iteration. -/
theorem C104_vqe_refuted (an : Bool) (E0 : ℝ) (old : Option Text) (o o' : Obs) (os : List Obs) :
    runCalls (reportVqe true an) ⟨0, E0, old⟩ [o] = (⟨1, o.energy, some (vqeHeader an ++ vqeHeader an)⟩, none) ∧
    runCalls (reportVqe true an) ⟨0, E0, old⟩ (o :: o' :: os) = (⟨2, o.energy, some (vqeHeader an ++ vqeHeader an)⟩, some .nameError) := by
  constructor <;> simp [runCalls, reportVqe]

theorem adapt_calls_fail (an : Bool) (s : Rep) (hs : s.k = 0) (os : List Obs) (h : 2 ≤ os.length) : (runCalls (reportVqe true an) s os).2 = some .nameError := by
  obtain ⟨o, o', os, rfl⟩ : ∃ o o' os', os = o :: o' :: os' := by
    match os, h with
    | o :: o' :: os', _ => exact ⟨o, o', os', rfl⟩
  obtain ⟨k, E, f⟩ := s
  cases hs
  rw [(C104_vqe_refuted an E f o o' os).2]

/-- C104, refuted for ADAPT-VQE (finding F81): with a SciPy optimizer and `print_summary_file=True` the run fails unless every minimization is done after
at most one iteration. -/
theorem C104_adapt_refuted (F : NumFmt) (an : Bool) (ms : List Macro) (h : ∃ m ∈ ms, 2 ≤ m.calls.length) : (adaptFile F an ms).2 = some .nameError := by
  have key : ∀ (ms : List Macro) (k : ℕ) (file : Text) (pos : ℕ), (∃ m ∈ ms, 2 ≤ m.calls.length) → (macroLoop F (reportVqe true an) k file pos ms).2 = some .nameError := by
    intro ms
    induction ms with
    | nil => intro k file pos h; simp at h
    | cons m ms ih =>
      intro k file pos h
      rw [macroLoop]
      by_cases hm : 2 ≤ m.calls.length
      · have := adapt_calls_fail an ⟨0, m.start, some file⟩ rfl m.calls hm
        rcases hr : runCalls (reportVqe true an) ⟨0, m.start, some file⟩ m.calls with ⟨s, e⟩
        rw [hr] at this
        subst this
        rfl
      · obtain ⟨m', hm', h2⟩ := h
        have hm'' : m' ∈ ms := by
          rcases List.mem_cons.1 hm' with rfl | h
          · exact absurd h2 hm
          · exact h
        have hr : ∃ s, runCalls (reportVqe true an) ⟨0, m.start, some file⟩ m.calls = (s, none) := by
          match hc : m.calls, hm with
          | [], _ => exact ⟨_, rfl⟩
          | [o], _ => exact ⟨_, (C104_vqe_refuted an _ _ o o []).1⟩
          | _ :: _ :: _, hm => simp at hm
        obtain ⟨s, hr⟩ := hr
        rw [hr]
        exact ih _ _ _ ⟨m', hm'', h2⟩
  exact key ms _ _ _ h

/-- the lines of the macro-iterations -/
def macroRows (F : NumFmt) (k : ℕ) : List Macro → List Text
  | [] => []
  | m :: ms => macroRow F k m :: macroRows F (k + 1) ms

theorem macroRows_line {F : NumFmt} (hF : F.Plain) (ms : List Macro) : ∀ k, ∀ l ∈ macroRows F k ms, '\n' ∉ l ∧ IsData l := by
  induction ms with
  | nil => intro k l hl; simp [macroRows] at hl
  | cons m ms ih =>
    intro k l hl
    rcases List.mem_cons.1 hl with rfl | hl
    · exact macroRow_line hF ..
    · exact ih _ l hl

theorem macroRows_get (F : NumFmt) (ms : List Macro) : ∀ (k i : ℕ), (macroRows F k ms)[i]? = (ms[i]?).map (macroRow F (k + i)) := by
  induction ms with
  | nil => intro k i; simp [macroRows]
  | cons m ms ih =>
    intro k i
    cases i with
    | zero => simp [macroRows]
    | succ i => simp only [macroRows, List.getElem?_cons_succ]; rw [ih]; congr 2; omega

theorem heads_line : '\n' ∉ macroHead ∧ '\n' ∉ '#' :: ruling ∧ '\n' ∉ qiteHead ∧ '\n' ∉ qkHead ∧ '\n' ∉ ruling := by decide

/-- lines of a file of two header lines and rows -/
theorem table_lines {h1 h2 : Text} {rows : List Text} (n1 : '\n' ∉ h1) (n2 : '\n' ∉ h2) (hr : ∀ l ∈ rows, '\n' ∉ l ∧ IsData l) (c1 : h1.head? = some '#')
    (c2 : h2.head? = some '#') :
    textLines (h1 ++ ['\n'] ++ (h2 ++ ['\n']) ++ (rows.map (· ++ ['\n'])).flatten) = h1 :: h2 :: rows ++ [[]] ∧
    dataLines (h1 ++ ['\n'] ++ (h2 ++ ['\n']) ++ (rows.map (· ++ ['\n'])).flatten) = rows := by
  have e : textLines (h1 ++ ['\n'] ++ (h2 ++ ['\n']) ++ (rows.map (· ++ ['\n'])).flatten) = h1 :: h2 :: rows ++ [[]] := by
    rw [← textLines_ended (ls := h1 :: h2 :: rows)]
    · simp
    · intro l hl
      rcases List.mem_cons.1 hl with rfl | hl
      · exact n1
      rcases List.mem_cons.1 hl with rfl | hl
      · exact n2
      · exact (hr l hl).1
  refine ⟨e, ?_⟩
  rw [dataLines, e, List.cons_append, List.cons_append, List.filter_cons_of_neg (by simp [IsData, c1]), List.filter_cons_of_neg (by simp [IsData, c2]), List.filter_append,
    List.filter_eq_self.2]
  · simp [IsData]
  · intro l hl; simpa using (hr l hl).2

/-- C104, ADAPT-VQE and SPQE with the Jacobi solver: at the end, and after each macro-iteration, hence also if the run fails later, the file consists of two
comment lines and the lines of the macro-iterations so far (numbered from 0 by ADAPT-VQE, from 1 by SPQE). -/
theorem C104_macro (F : NumFmt) (hF : F.Plain) (an : Bool) (ms : List Macro) (h : ∀ m ∈ ms, m.calls = []) :
    (∃ t, adaptFile F an ms = (t, none) ∧ textLines t = macroHead :: ('#' :: ruling) :: macroRows F 0 ms ++ [[]] ∧ dataLines t = macroRows F 0 ms) ∧
    ∃ t, spqeFile F ms = (t, none) ∧ textLines t = macroHead :: ('#' :: ruling) :: macroRows F 1 ms ++ [[]] ∧ dataLines t = macroRows F 1 ms := by
  have key : ∀ step (ms : List Macro) (k : ℕ) (c : Text), (∀ m ∈ ms, m.calls = []) →
      macroLoop F step k c c.length ms = (c ++ ((macroRows F k ms).map (· ++ ['\n'])).flatten, none) := by
    intro step ms
    induction ms with
    | nil => intro k c _; simp [macroLoop, macroRows]
    | cons m ms ih =>
      intro k c hm
      rw [macroLoop, hm m (by simp), runCalls]
      simp only [Option.getD_some]
      rw [writeAt_end, ← List.length_append, ih _ _ fun m h => hm m (by simp [h])]
      simp [macroRows]
  have h0 : ∀ step k, macroFile F step k ms = (macroHead ++ ['\n'] ++ ('#' :: ruling ++ ['\n']) ++ ((macroRows F k ms).map (· ++ ['\n'])).flatten, none) := by
    intro step k
    unfold macroFile
    have e1 : writeAt [] 0 (macroHead ++ ['\n']) = macroHead ++ ['\n'] := writeAt_end [] _
    have e2 : writeAt (macroHead ++ ['\n']) (macroHead.length + 1) ('#' :: ruling ++ ['\n']) = macroHead ++ ['\n'] ++ ('#' :: ruling ++ ['\n']) := by
      have := writeAt_end (macroHead ++ ['\n']) ('#' :: ruling ++ ['\n'])
      rwa [List.length_append, List.length_singleton] at this
    simp only
    rw [e1, e2]
    have e3 : macroHead.length + 1 + (ruling.length + 2) = (macroHead ++ ['\n'] ++ ('#' :: ruling ++ ['\n'])).length := by
      rw [List.length_append, List.length_append, List.length_append, List.length_cons]; rfl
    rw [e3, key _ _ _ _ h]
  have hn := heads_line
  refine ⟨⟨_, h0 _ _, ?_⟩, ⟨_, h0 _ _, ?_⟩⟩
  · exact table_lines hn.1 hn.2.1 (macroRows_line hF ms 0) (by simp [macroHead]) rfl
  · exact table_lines hn.1 hn.2.1 (macroRows_line hF ms 1) (by simp [macroHead]) rfl

/-- C104, QITE: after every step the file consists of two comment lines and the lines of the initial state and of the steps so far. -/
theorem C104_qite (F : NumFmt) (hF : F.Plain) (rs : List TabRow) : textLines (qiteFile F rs) = qiteHead :: ('#' :: ruling) :: rs.map (tabRow F "7.3f") ++ [[]] ∧
    dataLines (qiteFile F rs) = rs.map (tabRow F "7.3f") := by
  have e : qiteFile F rs = qiteHead ++ ['\n'] ++ ('#' :: ruling ++ ['\n']) ++ ((rs.map (tabRow F "7.3f")).map (· ++ ['\n'])).flatten := by
    rw [qiteFile, writeAll_flatten]; simp [Function.comp_def]
  rw [e]
  refine table_lines heads_line.2.2.1 heads_line.2.1 ?_ (by simp [qiteHead]) rfl
  intro l hl
  obtain ⟨r, _, rfl⟩ := List.mem_map.1 hl
  exact tabRow_line hF _ r

/-- C104, NTSRQK with `diagonalize_each_step`: two comment lines and the lines of the states so far. -/
theorem C104_ntsrqk (F : NumFmt) (hF : F.Plain) (old : Option Text) (rs : List TabRow) : ∃ t, ntsrqkFile F true old rs = some t ∧
    textLines t = ('#' :: qkHead) :: ('#' :: ruling) :: rs.map (tabRow F "7.2e") ++ [[]] ∧ dataLines t = rs.map (tabRow F "7.2e") := by
  refine ⟨_, rfl, ?_⟩
  have e : writeAll (('#' :: qkHead ++ ['\n']) :: ('#' :: ruling ++ ['\n']) :: rs.map fun r => tabRow F "7.2e" r ++ ['\n']) =
      '#' :: qkHead ++ ['\n'] ++ ('#' :: ruling ++ ['\n']) ++ ((rs.map (tabRow F "7.2e")).map (· ++ ['\n'])).flatten := by
    rw [writeAll_flatten]; simp [Function.comp_def]
  rw [e]
  refine table_lines ?_ heads_line.2.1 ?_ rfl rfl
  · intro h; rcases List.mem_cons.1 h with h | h
    · exact absurd h (by decide)
    · exact heads_line.2.2.2.1 h
  · intro l hl
    obtain ⟨r, _, rfl⟩ := List.mem_map.1 hl
    exact tabRow_line hF _ r

/-- C104, SRQK with `diagonalize_each_step`: the lines of the states so far, after two header lines that are not comments (finding F82); without
`diagonalize_each_step` the file is not written at all, whatever `print_summary_file` says. -/
theorem C104_srqk (F : NumFmt) (hF : F.Plain) (old : Option Text) (rs : List TabRow) : (∃ t, srqkFile F true old rs = some t ∧
    textLines t = qkHead :: ruling :: rs.map (tabRow F "7.2e") ++ [[]] ∧ dataLines t = qkHead :: ruling :: rs.map (tabRow F "7.2e")) ∧
    srqkFile F false old rs = old ∧ ntsrqkFile F false old rs = old := by
  refine ⟨⟨_, rfl, ?_⟩, rfl, rfl⟩
  have e : textLines (writeAll ((qkHead ++ ['\n'] ++ ruling ++ ['\n']) :: rs.map fun r => tabRow F "7.2e" r ++ ['\n'])) = qkHead :: ruling :: rs.map (tabRow F "7.2e") ++ [[]] := by
    rw [← textLines_ended (ls := qkHead :: ruling :: rs.map (tabRow F "7.2e")), writeAll_flatten]
    · simp [Function.comp_def]
    · intro l hl
      rcases List.mem_cons.1 hl with rfl | hl
      · exact heads_line.2.2.2.1
      rcases List.mem_cons.1 hl with rfl | hl
      · exact heads_line.2.2.2.2
      · obtain ⟨r, _, rfl⟩ := List.mem_map.1 hl
        exact (tabRow_line hF _ r).1
  refine ⟨e, ?_⟩
  rw [dataLines, e, List.filter_append, List.filter_eq_self.2]
  · simp [IsData]
  · intro l hl
    rcases List.mem_cons.1 hl with rfl | hl
    · decide
    rcases List.mem_cons.1 hl with rfl | hl
    · decide
    · obtain ⟨r, _, rfl⟩ := List.mem_map.1 hl
      simpa using (tabRow_line hF _ r).2

/-- the beginning of the table of a residual minimization -/
def pqeStart : Text := '\n' :: pqeHead1 ++ ('\n' :: pqeHead2)

theorem writeAt_keeps {c p : Text} {pos : ℕ} (s : Text) (h : p <+: c) (hp : p.length ≤ pos) : p <+: writeAt c pos s := by
  obtain ⟨d, rfl⟩ := h
  unfold writeAt
  rw [List.take_append, List.take_of_length_le hp, List.append_assoc, List.append_assoc, List.append_assoc]
  exact List.prefix_append _ _

theorem pqe_calls (F : NumFmt) (hF : F.Plain) (s : Rep) (hs : s.k = 0) (os : List Obs) : ∃ s', runCalls (reportPqe F true) s os = (s', none) ∧
    (os = [] → s' = s) ∧ (os ≠ [] → ∃ t, s'.file = some t ∧ textLines t = [] :: pqeHead1 :: pqeHead2 :: pqeRows F 1 s.prev os ∧ pqeStart <+: t) := by
  by_cases h : os = []
  · subst h; exact ⟨s, rfl, fun _ => rfl, fun h => absurd rfl h⟩
  · obtain ⟨k, E0, old⟩ := s
    cases hs
    obtain ⟨E, t, h1, h2, _⟩ := C104_pqe F hF E0 old os h
    refine ⟨_, h1, fun h' => absurd h' h, fun _ => ⟨t, rfl, h2, ?_⟩⟩
    obtain ⟨o, os, rfl⟩ := List.exists_cons_of_ne_nil h
    obtain ⟨E', h3⟩ := pqe_more F os 1 o.energy (pqeStart ++ ('\n' :: pqeRow F 1 o.energy (o.energy - E0) o.vecEvals o.mEvals o.norm)) le_rfl
    have hs : reportPqe F true ⟨0, E0, old⟩ o = (⟨1, o.energy, some (pqeStart ++ ('\n' :: pqeRow F 1 o.energy (o.energy - E0) o.vecEvals o.mEvals o.norm))⟩, none) := by
      unfold reportPqe pqeStart
      simp
    rw [runCalls, hs] at h1
    simp only at h1
    rw [h3] at h1
    have := congrArg (fun r : Rep × Option Exc => r.1.file) h1
    simp only [Option.some.injEq] at this
    rw [← this, List.append_assoc]
    exact List.prefix_append _ _

theorem spqe_loop (F : NumFmt) (hF : F.Plain) (ms : List Macro) : ∀ (k : ℕ) (file : Text) (pos : ℕ), 160 ≤ pos →
    ∃ t, macroLoop F (reportPqe F true) k file pos ms = (t, none) ∧ ((pqeStart.take 160 <+: file ∨ ∃ m ∈ ms, m.calls ≠ []) → pqeStart.take 160 <+: t) := by
  induction ms with
  | nil => intro k file pos _; exact ⟨file, rfl, fun h => by simpa using h⟩
  | cons m ms ih =>
    intro k file pos hpos
    obtain ⟨s, h1, h2, h3⟩ := pqe_calls F hF ⟨0, m.start, some file⟩ rfl m.calls
    obtain ⟨t, h4, h5⟩ := ih (k + 1) (writeAt (s.file.getD []) pos (macroRow F k m ++ ['\n'])) (pos + (macroRow F k m ++ ['\n']).length) (by omega)
    refine ⟨t, ?_, fun h => h5 ?_⟩
    · rw [macroLoop, h1]; exact h4
    · have hlen : (pqeStart.take 160).length ≤ pos := by rw [List.length_take]; omega
      by_cases hc : m.calls = []
      · rcases h with h | ⟨m', hm', hm''⟩
        · refine .inl (writeAt_keeps _ ?_ hlen)
          rw [h2 hc]; exact h
        · rcases List.mem_cons.1 hm' with rfl | hm'
          · exact absurd hc hm''
          · exact .inr ⟨m', hm', hm''⟩
      · obtain ⟨t', e1, _, e3⟩ := h3 hc
        refine .inl (writeAt_keeps _ ?_ hlen)
        rw [e1]; exact (List.take_prefix _ _).trans e3

theorem macroHead_length : macroHead.length + 1 + (ruling.length + 2) = 160 := by decide

/-- C104, refuted for SPQE with a SciPy optimizer (finding F83): the minimizations overwrite the file.  As soon as one of them has an iteration the header of
SPQE is gone, and the file begins with an empty line and the header of the table of a minimization. -/
theorem C104_spqe_refuted (F : NumFmt) (hF : F.Plain) (ms : List Macro) (h : ∃ m ∈ ms, m.calls ≠ []) :
    ∃ t, spqeFile F ms = (t, none) ∧ (textLines t)[0]? = some [] ∧ (textLines t)[1]? = some pqeHead1 := by
  unfold spqeFile macroFile
  simp only
  rw [macroHead_length]
  obtain ⟨t, h1, h2⟩ := spqe_loop F hF ms 1 (writeAt (writeAt [] 0 (macroHead ++ ['\n'])) (macroHead.length + 1) ('#' :: ruling ++ ['\n'])) 160 le_rfl
  obtain ⟨d, rfl⟩ := h2 (.inr h)
  refine ⟨_, h1, ?_⟩
  have e : pqeStart.take 160 = [] ++ '\n' :: (pqeHead1 ++ '\n' :: (pqeHead2.take 64)) := by decide
  rw [e, List.append_assoc, List.cons_append, textLines_line (by simp), List.append_assoc, List.cons_append, textLines_line (by decide)]
  exact ⟨rfl, rfl⟩

/-- … and what the last minimization leaves is its own table, with the line of its macro-iteration written over it at the place where it would have been:
nothing is left of the macro-iterations before. -/
theorem C104_spqe_last (F : NumFmt) (hF : F.Plain) (ms : List Macro) (m : Macro) (h : m.calls ≠ []) :
    ∃ t pos, 160 ≤ pos ∧ textLines t = [] :: pqeHead1 :: pqeHead2 :: pqeRows F 1 m.start m.calls ∧
      spqeFile F (ms ++ [m]) = (writeAt t pos (macroRow F (1 + ms.length) m ++ ['\n']), none) := by
  have key : ∀ (ms : List Macro) (k : ℕ) (file : Text) (pos : ℕ), 160 ≤ pos → ∃ t pos', 160 ≤ pos' ∧
      textLines t = [] :: pqeHead1 :: pqeHead2 :: pqeRows F 1 m.start m.calls ∧
      macroLoop F (reportPqe F true) k file pos (ms ++ [m]) = (writeAt t pos' (macroRow F (k + ms.length) m ++ ['\n']), none) := by
    intro ms
    induction ms with
    | nil =>
      intro k file pos hpos
      obtain ⟨s, h1, _, h3⟩ := pqe_calls F hF ⟨0, m.start, some file⟩ rfl m.calls
      obtain ⟨t, e1, e2, _⟩ := h3 h
      refine ⟨t, pos, hpos, e2, ?_⟩
      rw [List.nil_append, macroLoop, h1]
      simp only
      rw [e1, macroLoop]; simp
    | cons a ms ih =>
      intro k file pos hpos
      obtain ⟨s, h1, _, _⟩ := pqe_calls F hF ⟨0, a.start, some file⟩ rfl a.calls
      obtain ⟨t, pos', x1, x2, x3⟩ := ih (k + 1) (writeAt (s.file.getD []) pos (macroRow F k a ++ ['\n'])) (pos + (macroRow F k a ++ ['\n']).length) (by omega)
      refine ⟨t, pos', x1, x2, ?_⟩
      rw [List.cons_append, macroLoop, h1]
      simp only
      rw [x3, List.length_cons, show k + 1 + ms.length = k + (ms.length + 1) by omega]
  unfold spqeFile macroFile
  simp only
  rw [macroHead_length]
  obtain ⟨t, pos, h1, h2, h3⟩ := key ms 1 _ 160 le_rfl
  exact ⟨t, pos, h1, h2, h3⟩

/-- C104: a format in which every number is the digit 0 is plain, and a run of two iterations. -/
theorem C104_example : (⟨fun _ _ => ['0'], fun _ _ => ['0']⟩ : NumFmt).Plain ∧
    (runCalls (reportPqe ⟨fun _ _ => ['0'], fun _ _ => ['0']⟩ true) ⟨0, 0, some ['x']⟩ [⟨1, 1, 1, 1⟩, ⟨0.5, 2, 2, 0.5⟩]).1.k = 2 := by
  refine ⟨⟨fun _ _ => by simp, fun _ _ => by simp⟩, ?_⟩
  simp [runCalls, reportPqe]

end QF
