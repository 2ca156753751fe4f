import Verif.Model.LanczosFile
import Verif.Props.SummaryFile
import Verif.Props.QLanczos
import Verif.Props.KrylovMono

/-!
C104 for `lanczos_summary.dat`, and C119: what its lines say.
-/
namespace QF

/-- the first `k` kept vectors -/
def QiteState.first (st : QiteState) (k : ℕ) : QiteState := { st with lvecs := st.lvecs.take k, hlvecs := st.hlvecs.take k }

theorem fillPair_take {lv hv : List (List ℂ)} {k m n : ℕ} (hm : m < k) (hn : n < k) (M : NMat × NMat) : fillPair (lv.take k) (hv.take k) M m n = fillPair lv hv M m n := by
  unfold fillPair
  rw [List.getElem?_take_of_lt hm, List.getElem?_take_of_lt hn, List.getElem?_take_of_lt hn]

theorem foldlM_congr' {α β : Type} {f g : β → α → Except Exc β} (l : List α) (h : ∀ a ∈ l, ∀ b, f b a = g b a) (b : β) : l.foldlM f b = l.foldlM g b := by
  induction l generalizing b with
  | nil => rfl
  | cons a l ih =>
    rw [List.foldlM_cons, List.foldlM_cons, h a (by simp)]
    congr 1
    funext c
    exact ih (fun a ha => h a (by simp [ha])) c

theorem lanczosStep_first {eig : EigOracle} {st : QiteState} {k m : ℕ} (hm : m < k) (s : (NMat × NMat) × List ℂ) :
    QiteAlg.lanczosStep eig (st.first k) s m = QiteAlg.lanczosStep eig st s m := by
  unfold QiteAlg.lanczosStep
  rw [foldlM_congr' (g := fun M n => fillPair st.lvecs st.hlvecs M m n)]
  intro n hn M
  exact fillPair_take hm (by have := List.mem_range.1 hn; omega) M

theorem lanczos_prefix {eig : EigOracle} {st : QiteState} {k : ℕ} (hk : k ≤ st.lvecs.length) : QiteAlg.qlanczos eig (st.first k) = (do
    let r ← (List.range k).foldlM (QiteAlg.lanczosStep eig st) (zeroMats, [])
    let e ← (r.2[0]?).elim (.error .nameError) pure
    pure (r.1, e)) := by
  unfold QiteAlg.qlanczos
  have : (st.first k).lvecs.length = k := by show (st.lvecs.take k).length = k; rw [List.length_take]; omega
  rw [this, foldlM_congr' (g := QiteAlg.lanczosStep eig st)]
  intro m hm s
  exact lanczosStep_first (List.mem_range.1 hm) s

theorem lanczosStep_ne {eig : EigOracle} {st : QiteState} {s s' : (NMat × NMat) × List ℂ} {m : ℕ} (h : QiteAlg.lanczosStep eig st s m = .ok s') : s'.2 ≠ [] := by
  unfold QiteAlg.lanczosStep at h
  obtain ⟨M, -, h⟩ := bindOk h
  obtain ⟨⟨ev, C⟩, -, h⟩ := bindOk h
  simp only at h
  by_cases hev : ev = []
  · rw [if_pos hev] at h; cases h
  · rw [if_neg hev] at h; cases h; exact hev

theorem lanczosHead_line : '\n' ∉ lanczosHead := by decide

theorem lanczosRow_line {F : NumFmt} (hF : F.Plain) (hd : ∀ s x, F.real s x ≠ [] ∧ '#' ∉ F.real s x) {c : Text} (hc : '\n' ∉ c) (b E : ℝ) :
    '\n' ∉ lanczosRow F b c E ∧ IsData (lanczosRow F b c E) := by
  constructor
  · unfold lanczosRow
    simp only [List.mem_append, hF.real, not_or]
    exact ⟨⟨⟨⟨⟨id, by decide⟩, hc⟩, by decide⟩, id⟩, by decide⟩
  · unfold lanczosRow
    obtain ⟨h1, h2⟩ := hd "7.3f" b
    obtain ⟨a, l, h⟩ := List.exists_cons_of_ne_nil h1
    rw [h]
    refine ⟨by simp, ?_⟩
    simp only [List.cons_append, List.head?_cons, ne_eq, Option.some.injEq]
    rintro rfl
    exact h2 (by rw [h]; simp)

theorem lanczos_rows (F : NumFmt) (cond : ℕ → NMat → Text) (eig : EigOracle) (A : QiteAlg) (st : QiteState) (d : ℕ) :
    ∀ (k : ℕ) (s : (NMat × NMat) × List ℂ) (c : Text), k + d = st.lvecs.length → (List.range k).foldlM (QiteAlg.lanczosStep eig st) (zeroMats, []) = .ok s →
    ∃ (rows : List Text) (e : Option Exc), lanczosLoop F cond eig A st (List.range' k d) s c c.length = (c ++ (rows.map (· ++ ['\n'])).flatten, e) ∧ rows.length ≤ d ∧ (e = none ↔ rows.length = d) ∧
      (∀ i < rows.length, ∃ M E, QiteAlg.qlanczos eig (st.first (k + i + 1)) = .ok (M, E) ∧
        rows[i]? = some (lanczosRow F ((k + i : ℕ) * A.lanczosGap * A.db) (cond (k + i + 1) M.1) E.re)) ∧
      ∀ x, e = some x → QiteAlg.qlanczos eig (st.first (k + rows.length + 1)) = .error x := by
  induction d with
  | zero => intro k s c _ _; exact ⟨[], none, by simp [lanczosLoop], by simp, by simp, by simp, by simp⟩
  | succ d ih =>
    intro k s c hkd hs
    rw [List.range'_succ, lanczosLoop]
    rcases hst : QiteAlg.lanczosStep eig st s k with x | s'
    · refine ⟨[], some x, by simp, by simp, by simp, by simp, ?_⟩
      rintro _ ⟨⟩
      rw [lanczos_prefix (by simp; omega), List.length_nil, add_zero, List.range_succ, List.foldlM_append, hs, except_ok_bind, List.foldlM_cons, hst]
      rfl
    · have hs' : (List.range (k + 1)).foldlM (QiteAlg.lanczosStep eig st) (zeroMats, []) = .ok s' := by
        rw [List.range_succ, List.foldlM_append, hs, except_ok_bind, List.foldlM_cons, hst]; rfl
      simp only
      rw [writeAt_end, ← List.length_append]
      obtain ⟨rows, e, h1, h2, h3, h4, h5⟩ := ih (k + 1) s' (c ++ (lanczosRow F ((k : ℝ) * A.lanczosGap * A.db) (cond (k + 1) s'.1.1) (s'.2.headD 0).re ++ ['\n'])) (by omega) hs'
      obtain ⟨z, l, hz⟩ := List.exists_cons_of_ne_nil (lanczosStep_ne hst)
      refine ⟨lanczosRow F ((k : ℝ) * A.lanczosGap * A.db) (cond (k + 1) s'.1.1) (s'.2.headD 0).re :: rows, e, ?_, by simpa using h2, by simpa using h3, ?_, ?_⟩
      · rw [h1]; simp
      · intro i hi
        cases i with
        | zero =>
          refine ⟨s'.1, z, ?_, by simp [hz]⟩
          rw [lanczos_prefix (by omega), hs', except_ok_bind, hz]; rfl
        | succ i =>
          obtain ⟨M, E, a1, a2⟩ := h4 i (by simpa using hi)
          have e1 : k + 1 + i = k + (i + 1) := by omega
          rw [e1] at a1 a2
          exact ⟨M, E, a1, by simpa using a2⟩
      · intro x hx
        have := h5 x hx
        rw [List.length_cons, show k + (rows.length + 1) + 1 = k + 1 + rows.length + 1 by omega]
        exact this

/-- C104, `lanczos_summary.dat`: at the end of `do_qlanczos`, and where it fails, the file consists of two comment lines and one line for each problem solved so far.
Line `m` says what the Lanczos procedure gives for the first `m + 1` kept vectors. -/
theorem C104_lanczos (F : NumFmt) (hF : F.Plain) (hd : ∀ s x, F.real s x ≠ [] ∧ '#' ∉ F.real s x) (cond : ℕ → NMat → Text) (hc : ∀ k S, '\n' ∉ cond k S) (eig : EigOracle)
    (A : QiteAlg) (st : QiteState) : ∃ (t : Text) (e : Option Exc) (rows : List Text), lanczosFile F cond eig A st = (t, e) ∧ textLines t = lanczosHead :: ('#' :: ruling) :: rows ++ [[]] ∧ dataLines t = rows ∧
      rows.length ≤ st.lvecs.length ∧ (e = none ↔ rows.length = st.lvecs.length) ∧
      (∀ m < rows.length, ∃ M E, QiteAlg.qlanczos eig (st.first (m + 1)) = .ok (M, E) ∧
        rows[m]? = some (lanczosRow F (m * A.lanczosGap * A.db) (cond (m + 1) M.1) E.re)) ∧
      ∀ x, e = some x → QiteAlg.qlanczos eig (st.first (rows.length + 1)) = .error x := by
  obtain ⟨rows, e, h1, h2, h3, h4, h5⟩ := lanczos_rows F cond eig A st st.lvecs.length 0 (zeroMats, []) (lanczosHead ++ ['\n'] ++ ('#' :: ruling ++ ['\n'])) (by omega) rfl
  simp only [Nat.zero_add] at h4 h5
  have hr : ∀ l ∈ rows, '\n' ∉ l ∧ IsData l := by
    intro l hl
    obtain ⟨m, hm, rfl⟩ := List.getElem_of_mem hl
    obtain ⟨M, E, -, a2⟩ := h4 m hm
    rw [List.getElem?_eq_getElem hm, Option.some.injEq] at a2
    rw [a2]
    exact lanczosRow_line hF hd (hc _ _) _ _
  obtain ⟨t1, t2⟩ := table_lines lanczosHead_line heads_line.2.1 hr rfl rfl
  refine ⟨_, e, rows, ?_, t1, t2, h2, h3, h4, h5⟩
  unfold lanczosFile
  have e1 : writeAt [] 0 (lanczosHead ++ ['\n']) = lanczosHead ++ ['\n'] := writeAt_end [] _
  have e2 : writeAt (lanczosHead ++ ['\n']) (lanczosHead.length + 1) ('#' :: ruling ++ ['\n']) = lanczosHead ++ ['\n'] ++ ('#' :: ruling ++ ['\n']) := by
    have := writeAt_end (lanczosHead ++ ['\n']) ('#' :: ruling ++ ['\n'])
    rwa [List.length_append, List.length_singleton] at this
  simp only
  rw [e1, e2]
  have e3 : lanczosHead.length + 1 + (ruling.length + 2) = (lanczosHead ++ ['\n'] ++ ('#' :: ruling ++ ['\n'])).length := by
    rw [List.length_append, List.length_append, List.length_append, List.length_cons]; rfl
  rw [e3, List.range_eq_range', h1]

/-- a format as the theorem asks for -/
theorem C104_lanczos_example : ∃ F : NumFmt, F.Plain ∧ (∀ s x, F.real s x ≠ [] ∧ '#' ∉ F.real s x) ∧ lanczosRow F 1 ['1'] 2 = "0 1    0 ".toList :=
  ⟨⟨fun _ _ => ['0'], fun _ _ => ['0']⟩, ⟨fun _ _ => by simp, fun _ _ => by simp⟩, fun _ _ => ⟨by simp, by simp⟩, by decide⟩

end QF
