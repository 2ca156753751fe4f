import Verif.Model.Jacobi
import Verif.Props.UccGradient

/-!
C75: the Jacobi solver of the UCC algorithms.
-/
namespace QF

theorem bindOk {α β : Type} {x : Except Exc α} {f : α → Except Exc β} {b : β} (h : x >>= f = .ok b) : ∃ a, x = .ok a ∧ f a = .ok b := by
  cases x with
  | error e => cases h
  | ok a => exact ⟨a, rfl, h⟩

/-- one step: the residual of the old amplitudes, preconditioned and added to them, gives the plain update `u`; the new amplitudes are
`u` itself or, with DIIS, the extrapolation of the history extended by `u`; the energy is that of the new amplitudes, the norm that of
the residual of the *old* ones -/
structure JacobiStepOf (J : JacobiEnv) (s s' : JacobiState) : Prop where
  energy : J.energy s'.tamps = .ok s'.energy
  update : ∃ r u t e, J.residual s.tamps = .ok r ∧ J.precond r = .ok u ∧ npAdd s.tamps u = .ok t ∧ npSub t s.tamps = .ok e ∧ s'.norm = npNorm r ∧
    (J.diisMaxDim < 2 → s'.tamps = t ∧ s'.tDiis = s.tDiis ++ [t] ∧ s'.eDiis = s.eDiis ++ [e]) ∧
    (2 ≤ J.diisMaxDim → diis J.lstsq J.diisMaxDim (s.tDiis ++ [t]) (s.eDiis ++ [e]) = .ok (s'.tamps, s'.tDiis, s'.eDiis))

theorem jacobiStep_of {J : JacobiEnv} {s s' : JacobiState} (h : jacobiStep J s = .ok s') : JacobiStepOf J s s' := by
  unfold jacobiStep at h
  obtain ⟨r, h1, h⟩ := bindOk h
  obtain ⟨u, h2, h⟩ := bindOk h
  obtain ⟨t, h3, h⟩ := bindOk h
  obtain ⟨e, h4, h⟩ := bindOk h
  obtain ⟨⟨t', td, ed⟩, h5, h⟩ := bindOk h
  obtain ⟨E, h6, h⟩ := bindOk h
  cases h
  refine ⟨h6, r, u, t, e, h1, h2, h3, h4, rfl, fun hd => ?_, fun hd => ?_⟩
  · rw [if_neg (by omega)] at h5; cases h5; exact ⟨rfl, rfl, rfl⟩
  · rw [if_pos hd] at h5; exact h5

/-- the run of the solver: a sequence of states, each made from the one before by a step -/
def JacobiRun (J : JacobiEnv) (k : ℕ) (st : ℕ → JacobiState) : Prop := ∀ i < k, JacobiStepOf J (st i) (st (i + 1))

theorem jacobiLoop_run {J : JacobiEnv} : ∀ (fuel k0 : ℕ) (s : JacobiState) (s' : JacobiState) (k : ℕ), jacobiLoop J fuel k0 s = .ok (s', k) →
    ∃ st : ℕ → JacobiState, ∃ m, k = k0 + m ∧ m ≤ fuel ∧ st 0 = s ∧ st m = s' ∧ JacobiRun J m st ∧
      (m < fuel → 0 < m ∧ (st m).norm < J.thresh) ∧ ∀ i, 0 < i → i < m → J.thresh ≤ (st i).norm := by
  intro fuel
  induction fuel with
  | zero =>
    intro k0 s s' k h
    cases h
    exact ⟨fun _ => s, 0, rfl, le_rfl, rfl, rfl, fun i hi => absurd hi (by omega), fun h => absurd h (by omega), fun i _ hi => absurd hi (by omega)⟩
  | succ fuel ih =>
    intro k0 s s' k h
    unfold jacobiLoop at h
    obtain ⟨s1, h1, h⟩ := bindOk h
    have hs := jacobiStep_of h1
    by_cases hc : s1.norm < J.thresh
    · rw [if_pos hc] at h
      obtain ⟨rfl, rfl⟩ : s1 = s' ∧ k0 + 1 = k := by simpa using h
      refine ⟨fun i => if i = 0 then s else s1, 1, rfl, by omega, rfl, rfl, ?_, fun _ => ⟨by omega, hc⟩, fun i h1 h2 => by omega⟩
      intro i hi
      obtain rfl : i = 0 := by omega
      exact hs
    · rw [if_neg hc] at h
      obtain ⟨st, m, a1, a2, a3, a4, a5, a6, a7⟩ := ih (k0 + 1) s1 s' k h
      refine ⟨fun i => match i with | 0 => s | i + 1 => st i, m + 1, by omega, by omega, rfl, a4, ?_, ?_, ?_⟩
      · intro i hi
        cases i with
        | zero => show JacobiStepOf J s (st 0); rw [a3]; exact hs
        | succ i => exact a5 i (by omega)
      · intro hm; exact ⟨by omega, (a6 (by omega)).2⟩
      · intro i h0 hi
        cases i with
        | zero => omega
        | succ i =>
          show J.thresh ≤ (st i).norm
          cases i with
          | zero => rw [a3]; exact not_lt.1 hc
          | succ i => exact a7 (i + 1) (by omega) (by omega)

/-- C75: for every energy, residual and preconditioner, if `jacobi_solver` returns it made `k` steps, `1 ≤ k ≤ opt_maxiter`, the reported
energy is `energy_feval` of the final amplitudes, it stopped before `opt_maxiter` only because the norm of the residual evaluated in the
last step was below the threshold, and it never went on after such a residual. -/
theorem C75_run (J : JacobiEnv) (t0 : List ℝ) (t : List ℝ) (E : ℝ) (k : ℕ) (h : jacobiSolver J t0 = .ok (t, E, k)) :
    1 ≤ k ∧ k ≤ J.maxIter ∧ J.energy t = .ok E ∧ ∃ st : ℕ → JacobiState, JacobiRun J k st ∧ (st 0).tamps = t0 ∧ (st 0).tDiis = [t0] ∧ (st 0).eDiis = [] ∧
      (st k).tamps = t ∧ (k < J.maxIter → (st k).norm < J.thresh) ∧ ∀ i, 0 < i → i < k → J.thresh ≤ (st i).norm := by
  unfold jacobiSolver at h
  obtain ⟨E0, h0, h⟩ := bindOk h
  by_cases hm : J.maxIter = 0
  · rw [if_pos hm] at h; cases h
  · rw [if_neg hm] at h
    obtain ⟨⟨s, k'⟩, h1, h⟩ := bindOk h
    cases h
    obtain ⟨st, m, a1, a2, a3, a4, a5, a6, a7⟩ := jacobiLoop_run _ _ _ _ _ h1
    have hk : k = m := by omega
    subst hk
    have hk0 : 0 < k := by
      rcases Nat.lt_or_ge k J.maxIter with hlt | hge
      · exact (a6 hlt).1
      · omega
    refine ⟨hk0, a2, ?_, st, a5, by rw [a3], by rw [a3], by rw [a3], by rw [a4], fun hlt => (a6 hlt).2, a7⟩
    obtain ⟨j, rfl⟩ : ∃ j, k = j + 1 := ⟨k - 1, by omega⟩
    have := (a5 j (by omega)).energy
    rw [a4] at this
    exact this

/-- C75: without DIIS every step is `t ← t + precond(residual(t))`. -/
theorem C75_plain (J : JacobiEnv) (hd : J.diisMaxDim < 2) {k : ℕ} {st : ℕ → JacobiState} (h : JacobiRun J k st) (i : ℕ) (hi : i < k) :
    ∃ r u, J.residual (st i).tamps = .ok r ∧ J.precond r = .ok u ∧ (st i).tamps.length = u.length ∧
      (st (i + 1)).tamps = List.zipWith (· + ·) (st i).tamps u ∧ (st (i + 1)).norm = npNorm r := by
  obtain ⟨_, r, u, t, e, h1, h2, h3, _, h5, h6, _⟩ := h i hi
  unfold npAdd at h3
  by_cases hl : (st i).tamps.length = u.length
  · rw [if_pos hl] at h3; cases h3
    exact ⟨r, u, h1, h2, hl, (h6 hd).1, h5⟩
  · rw [if_neg hl] at h3; cases h3

/-- C75: an exact solution of the DIIS equations has coefficients that add up to 1. -/
theorem C75_diis_normalised (M : List (List ℝ)) (x : List ℝ) (hx : x.length = M.length + 1)
    (h : ∀ r b, (r, b) ∈ List.zip (diisMatrix M) (List.replicate M.length 0 ++ [(-1 : ℝ)]) → (List.zipWith (· * ·) r x).sum = b) : x.dropLast.sum = 1 := by
  have hmem : ((List.replicate M.length (-1 : ℝ) ++ [0]), (-1 : ℝ)) ∈ List.zip (diisMatrix M) (List.replicate M.length 0 ++ [(-1 : ℝ)]) := by
    unfold diisMatrix
    rw [List.zip_append (by simp)]
    simp
  have := h _ _ hmem
  obtain ⟨y, a, rfl⟩ : ∃ y a, x = y ++ [a] := by
    rcases List.eq_nil_or_concat x with e | ⟨y, a, e⟩
    · subst e; simp at hx
    · exact ⟨y, a, by rw [e, List.concat_eq_append]⟩
  have hy : y.length = M.length := by simpa using hx
  rw [List.zipWith_append (by simp [hy])] at this
  have e2 : (List.zipWith (· * ·) (List.replicate M.length (-1 : ℝ)) y).sum = -y.sum := by
    rw [← hy]
    clear this h hmem hx hy
    induction y with
    | nil => simp
    | cons b y ih => rw [List.length_cons, List.replicate_succ, List.zipWith_cons_cons, List.sum_cons, List.sum_cons, ih]; ring
  rw [List.sum_append, e2] at this
  simp at this
  simpa using this

/-- the linear combination of vectors that DIIS forms -/
noncomputable def combine (n : ℕ) (x : List ℝ) (vs : List (List ℝ)) : List ℝ :=
  (List.zip x vs).foldl (fun t p => List.zipWith (· + ·) t (p.2.map (p.1 * ·))) (List.replicate n 0)

/-- C75: when `diis` returns, the oldest entry has been dropped if there were more than `diis_max_dim`, and the new amplitudes are the
combination of the remaining iterates after the first with the coefficients `lstsq` found; amplitudes are not otherwise changed. -/
theorem C75_diis (lstsq : List (List ℝ) → List ℝ → List ℝ) (d : ℕ) (ts es ts' es' : List (List ℝ)) (t : List ℝ)
    (h : diis lstsq d ts es = .ok (t, ts', es')) :
    (ts', es') = (if ts.length > d then (ts.drop 1, es.drop 1) else (ts, es)) ∧
      ∃ M, diisOverlaps es' = .ok M ∧ maxAbs M ≠ 0 ∧
        t = combine (ts'.getD 0 []).length (lstsq (diisMatrix M) (List.replicate (ts'.length - 1) 0 ++ [-1])).dropLast (ts'.drop 1) := by
  unfold diis at h
  set p := (if ts.length > d then (ts.drop 1, es.drop 1) else (ts, es)) with hp
  obtain ⟨a, b⟩ := p
  simp only at h
  obtain ⟨M, h1, h⟩ := bindOk h
  by_cases hz : maxAbs M = 0
  · rw [if_pos hz] at h; cases h
  rw [if_neg hz] at h
  obtain ⟨t0, h2, h⟩ := bindOk h
  obtain ⟨t', h3, h⟩ := bindOk h
  cases h
  refine ⟨rfl, M, h1, hz, ?_⟩
  clear hp
  cases ts' with
  | nil => simp [pyIndex] at h2
  | cons v a =>
    have ht0 : v = t0 := by
      simp only [pyIndex, List.getElem?_cons_zero] at h2
      exact Except.ok.inj h2
    subst ht0
    simp only [List.length_cons, Nat.add_sub_cancel, List.getD_cons_zero, List.drop_succ_cons, List.drop_zero] at h3 ⊢
    generalize (lstsq (diisMatrix M) (List.replicate a.length 0 ++ [-1])).dropLast = x at h3
    have key : ∀ (m : ℕ) (acc t' : List ℝ), (List.range m).foldlM (fun t l => do
        let c ← pyIndex x l
        let tl ← pyIndex (v :: a) (l + 1)
        npAdd t (tl.map (c * ·))) acc = .ok t' → m ≤ a.length → m ≤ x.length ∧
        t' = (List.zip (x.take m) (a.take m)).foldl (fun t p => List.zipWith (· + ·) t (p.2.map (p.1 * ·))) acc := by
      intro m
      induction m with
      | zero => intro acc t' h _; cases h; simp
      | succ m ih =>
        intro acc t' h hm
        rw [List.range_succ, List.foldlM_append] at h
        obtain ⟨t1, h4, h5⟩ := bindOk h
        obtain ⟨hx, rfl⟩ := ih acc t1 h4 (by omega)
        rw [List.foldlM_cons] at h5
        obtain ⟨t2, h5, h6⟩ := bindOk h5
        cases h6
        obtain ⟨c, h7, h5⟩ := bindOk h5
        obtain ⟨tl, h8, h5⟩ := bindOk h5
        have hxm : m < x.length := by
          by_contra hn
          rw [pyIndex, List.getElem?_eq_none (by omega)] at h7; cases h7
        have hc : x[m] = c := by rw [pyIndex, List.getElem?_eq_getElem hxm] at h7; exact Except.ok.inj h7
        have ha : a[m] = tl := by
          rw [pyIndex, List.getElem?_cons_succ, List.getElem?_eq_getElem (by omega)] at h8; exact Except.ok.inj h8
        refine ⟨hxm, ?_⟩
        rw [List.take_succ_eq_append_getElem hxm, List.take_succ_eq_append_getElem (by omega : m < a.length), List.zip_append (by simp; omega),
          List.foldl_append]
        unfold npAdd at h5
        split at h5
        · cases h5; simp [hc, ha]
        · cases h5
    obtain ⟨hx, e⟩ := key _ _ _ h3 le_rfl
    rw [e, combine]
    congr 1
    rw [List.take_length]
    apply List.ext_getElem
    · simp; omega
    · intro i h1 h2; simp

/-- C75: with `opt_maxiter = 0` the solver raises `UnboundLocalError`, whatever the starting point. -/
theorem C75_no_iterations (J : JacobiEnv) (h : J.maxIter = 0) (t0 : List ℝ) (E : ℝ) (hE : J.energy t0 = .ok E) : jacobiSolver J t0 = .error .nameError := by
  unfold jacobiSolver; rw [hE, except_ok_bind, if_pos h]

/-- C75: at an exact solution (zero residual) with DIIS on, the error overlaps vanish and `diis` fails instead of converging. -/
theorem C75_exact_start (J : JacobiEnv) (hd : 2 ≤ J.diisMaxDim) (hm : J.maxIter ≠ 0) (t0 : List ℝ) (E : ℝ) (hE : J.energy t0 = .ok E) (r : List ℝ)
    (hr : J.residual t0 = .ok r) (hp : J.precond r = .ok (List.replicate t0.length 0)) : jacobiSolver J t0 = .error .valueError := by
  have hadd : npAdd t0 (List.replicate t0.length 0) = .ok t0 := by
    unfold npAdd
    rw [if_pos (by simp)]
    congr 1
    apply List.ext_getElem <;> simp
  have hsub : npSub t0 t0 = .ok (List.replicate t0.length 0) := by
    unfold npSub
    rw [if_pos rfl]
    congr 1
    apply List.ext_getElem <;> simp
  have hdiis : diis J.lstsq J.diisMaxDim [t0, t0] [List.replicate t0.length 0] = .error .valueError := by
    unfold diis
    have : ¬([t0, t0].length > J.diisMaxDim) := by simp; omega
    rw [if_neg this]
    simp only [diisOverlaps, npDot, List.mapM_cons, List.mapM_nil]
    simp [pure, Except.pure, maxAbs]
  unfold jacobiSolver
  rw [hE, except_ok_bind, if_neg hm]
  obtain ⟨n, hn⟩ : ∃ n, J.maxIter = n + 1 := ⟨J.maxIter - 1, by omega⟩
  rw [hn]
  unfold jacobiLoop jacobiStep
  simp only [hr, hp, hadd, hsub, except_ok_bind, List.cons_append, List.nil_append, if_pos hd, hdiis]
  rfl

/-- an algorithm with one amplitude and residual `-t/2`, no DIIS -/
noncomputable def exampleJacobi : JacobiEnv where
  energy t := .ok t.sum
  residual t := .ok (t.map fun x => -x / 2)
  precond := .ok
  maxIter := 5
  thresh := 0.3
  diisMaxDim := 0
  lstsq _ _ := []

/-- C75: a concrete run: from 1 it converges in two steps. -/
theorem C75_example : jacobiSolver exampleJacobi [1] = .ok ([1 / 4], 1 / 4, 2) := by
  have hn : ∀ x : ℝ, npNorm [x] = |x| := by intro x; simp [npNorm, Real.sqrt_sq_eq_abs]
  simp only [exampleJacobi, jacobiSolver, jacobiLoop, jacobiStep, npAdd, npSub, except_ok_bind, List.map_cons, List.map_nil, List.length_cons, List.length_nil, if_true,
    List.zipWith_cons_cons, List.zipWith_nil_left, pure, Except.pure, hn, List.sum_cons, List.sum_nil]
  norm_num
  rw [if_pos (by rw [hn, abs_neg, abs_of_nonneg] <;> norm_num)]
  rfl

end QF
