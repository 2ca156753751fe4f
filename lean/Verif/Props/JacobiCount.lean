import Verif.Model.JacobiCount
import Verif.Props.Jacobi

/-!
C111: the evaluation counters of the Jacobi solver, UCCN-VQE and UCCN-PQE.
-/
namespace QF

theorem npAdd_length {a b c : List ℝ} (h : npAdd a b = .ok c) : c.length = a.length := by
  unfold npAdd at h
  by_cases hl : a.length = b.length
  · rw [if_pos hl] at h; cases h; simp [hl]
  · rw [if_neg hl] at h; cases h

theorem combine_length (n : ℕ) (x : List ℝ) (vs : List (List ℝ)) (hv : ∀ v ∈ vs, v.length = n) : (combine n x vs).length = n := by
  unfold combine
  have : ∀ (l : List (ℝ × List ℝ)) (t : List ℝ), t.length = n → (∀ p ∈ l, p.2.length = n) →
      (l.foldl (fun t p => List.zipWith (· + ·) t (p.2.map (p.1 * ·))) t).length = n := by
    intro l
    induction l with
    | nil => intro t ht _; exact ht
    | cons p l ih =>
      intro t ht hl
      refine ih _ ?_ (fun q hq => hl q (List.mem_cons_of_mem _ hq))
      simp [ht, hl p List.mem_cons_self]
  refine this _ _ (by simp) fun p hp => hv p.2 ?_
  exact (List.of_mem_zip hp).2

/-- all vectors of the state have `n` entries -/
def JacobiState.Sized (n : ℕ) (s : JacobiState) : Prop := s.tamps.length = n ∧ ∀ t ∈ s.tDiis, t.length = n

theorem JacobiStepOf.sized {J : JacobiEnv} {n : ℕ} {s s' : JacobiState} (h : JacobiStepOf J s s') (hs : s.Sized n) : s'.Sized n := by
  obtain ⟨r, u, t, e, _, _, h3, _, _, h6, h7⟩ := h.update
  have ht : t.length = n := by rw [npAdd_length h3, hs.1]
  have hall : ∀ x ∈ s.tDiis ++ [t], x.length = n := by
    intro x hx
    rcases List.mem_append.1 hx with hx | hx
    · exact hs.2 x hx
    · rw [List.mem_singleton.1 hx]; exact ht
  by_cases hd : 2 ≤ J.diisMaxDim
  · obtain ⟨c1, M, c2, c3, c4⟩ := C75_diis _ _ _ _ _ _ _ (h7 hd)
    have hsub : ∀ x ∈ s'.tDiis, x.length = n := by
      by_cases hl : (s.tDiis ++ [t]).length > J.diisMaxDim
      · rw [if_pos hl] at c1
        rw [show s'.tDiis = _ from (Prod.ext_iff.1 c1).1]
        exact fun x hx => hall x (List.drop_subset _ _ hx)
      · rw [if_neg hl] at c1
        rw [show s'.tDiis = _ from (Prod.ext_iff.1 c1).1]
        exact hall
    refine ⟨?_, hsub⟩
    have hne : s'.tDiis ≠ [] := by
      by_cases hl : (s.tDiis ++ [t]).length > J.diisMaxDim
      · rw [if_pos hl] at c1
        rw [show s'.tDiis = _ from (Prod.ext_iff.1 c1).1]
        intro h0
        have : ((s.tDiis ++ [t]).drop 1).length = 0 := by
          simp only [] at h0
          rw [h0]; rfl
        simp only [List.length_drop] at this
        omega
      · rw [if_neg hl] at c1
        rw [show s'.tDiis = _ from (Prod.ext_iff.1 c1).1]
        simp
    obtain ⟨v, vs, hv⟩ := List.exists_cons_of_ne_nil hne
    have hvn : (s'.tDiis.getD 0 []).length = n := by
      rw [hv]
      exact hsub v (by rw [hv]; simp)
    rw [c4, hvn]
    exact combine_length n _ _ fun x hx => hsub x (List.drop_subset _ _ hx)
  · obtain ⟨e1, e2, _⟩ := h6 (by omega)
    exact ⟨by rw [e1]; exact ht, by rw [e2]; exact hall⟩

theorem jacobiStepC_eq (J : JacobiEnv) (s : JacobiState) (c : Calls) :
    jacobiStepC J s c = (jacobiStep J s).map fun s' => (s', ⟨c.energies + 1, c.vecs + 1, c.elems + s.tamps.length⟩) := by
  unfold jacobiStepC jacobiStep
  cases J.residual s.tamps with
  | error e => rfl
  | ok r =>
    simp only [except_ok_bind]
    cases J.precond r with
    | error e => rfl
    | ok u =>
      simp only [except_ok_bind]
      cases npAdd s.tamps u with
      | error e => rfl
      | ok t =>
        simp only [except_ok_bind]
        cases npSub t s.tamps with
        | error e => rfl
        | ok e =>
          simp only [except_ok_bind]
          cases (if J.diisMaxDim ≥ 2 then diis J.lstsq J.diisMaxDim (s.tDiis ++ [t]) (s.eDiis ++ [e]) else pure (t, s.tDiis ++ [t], s.eDiis ++ [e])) with
          | error e => rfl
          | ok q =>
            simp only [except_ok_bind]
            cases J.energy q.1 with
            | error e => rfl
            | ok E => rfl

theorem jacobiLoopC_eq (J : JacobiEnv) (n : ℕ) (fuel k : ℕ) (s : JacobiState) (c : Calls) (hs : s.Sized n) :
    jacobiLoopC J fuel k s c = (jacobiLoop J fuel k s).map fun r =>
      (r.1, r.2, ⟨c.energies + (r.2 - k), c.vecs + (r.2 - k), c.elems + (r.2 - k) * n⟩) := by
  induction fuel generalizing k s c with
  | zero => simp [jacobiLoopC, jacobiLoop, Except.map]
  | succ fuel ih =>
    unfold jacobiLoopC jacobiLoop
    rw [jacobiStepC_eq]
    cases hst : jacobiStep J s with
    | error e => rfl
    | ok s' =>
      have hs' := (jacobiStep_of hst).sized hs
      simp only [Except.map, except_ok_bind]
      by_cases ht : s'.norm < J.thresh
      · rw [if_pos ht, if_pos ht]
        simp [hs.1]
      · rw [if_neg ht, if_neg ht, ih _ _ _ hs']
        cases hl : jacobiLoop J fuel (k + 1) s' with
        | error e => rfl
        | ok r =>
          have hk : k + 1 ≤ r.2 := by
            obtain ⟨_, m, hm, _⟩ := jacobiLoop_run fuel (k + 1) s' r.1 r.2 hl
            omega
          obtain ⟨d, hd⟩ := Nat.exists_eq_add_of_le hk
          simp only [Except.map, hs.1]
          rw [hd, show k + 1 + d - k = d + 1 by omega, show k + 1 + d - (k + 1) = d by omega]
          congr 4
          · ring
          · ring
          · ring

/-- C111: the counters of the Jacobi solver.  It returns exactly when the solver without counters returns, with the same amplitudes, energy and number `k` of iterations (otherwise with
the same exception); it has evaluated the residual vector `k` times and the energy `k + 1` times; the counters `_res_vec_evals` and `_res_m_evals` have grown by `k` and by
`k` times the number `n` of amplitudes; and the Pauli measurements by `Nl k (2n + 1)`: two per amplitude and iteration and one energy per iteration, the energy of the start not counted. -/
theorem C111_jacobi (Nl : ℕ) (J : JacobiEnv) (tamps : List ℝ) :
    jacobiSolverC Nl J tamps = (jacobiSolver J tamps).map fun r =>
      { tamps := r.1, energy := r.2.1, iters := r.2.2, calls := ⟨r.2.2 + 1, r.2.2, r.2.2 * tamps.length⟩, meas := Nl * r.2.2 * (2 * tamps.length + 1) } := by
  unfold jacobiSolverC jacobiSolver
  cases hE : J.energy tamps with
  | error e => rfl
  | ok E =>
    simp only [except_ok_bind]
    by_cases hm : J.maxIter = 0
    · rw [if_pos hm, if_pos hm]; rfl
    · rw [if_neg hm, if_neg hm]
      have hs : JacobiState.Sized tamps.length { tamps := tamps, tDiis := [tamps], eDiis := [], energy := E, norm := 0 } := ⟨rfl, by simp⟩
      rw [jacobiLoopC_eq J tamps.length _ _ _ _ hs]
      cases hl : jacobiLoop J J.maxIter 0 { tamps := tamps, tDiis := [tamps], eDiis := [], energy := E, norm := 0 } with
      | error e => rfl
      | ok r =>
        obtain ⟨st, m, h1, h2, h3, h4, h5, _⟩ := jacobiLoop_run _ _ _ r.1 r.2 hl
        have hlen : ∀ i ≤ m, (st i).Sized tamps.length := by
          intro i
          induction i with
          | zero => intro _; rw [h3]; exact hs
          | succ i ih => intro hi; exact (h5 i (by omega)).sized (ih (by omega))
        have hr : r.1.tamps.length = tamps.length := by rw [← h4]; exact (hlen m le_rfl).1
        show Except.ok _ = Except.ok _
        simp only [Nat.sub_zero, Nat.zero_add, hr]
        congr 2
        · congr 1; ring
        · ring

/-- C111: the measurements that UCCN-VQE reports after scipy with analytic gradients: one per term of the Hamiltonian for each energy, and for each gradient two for every final
amplitude above 1e-12; for other gradients those of the energies only.  The energy evaluated before the optimization is not counted. -/
theorem C111_uccnvqe (Nl : ℕ) (x : List ℝ) (nfev njev : ℕ) :
    uccnvqeMeasures Nl true x nfev njev = Nl * (nfev + 2 * njev * (x.filter fun t => open Classical in decide (1e-12 < |t|)).length) ∧
      uccnvqeMeasures Nl false x nfev njev = Nl * nfev := by
  refine ⟨?_, rfl⟩
  have : ∀ (x : List ℝ) (a : ℕ), x.foldl (fun n t => open Classical in if 1e-12 < |t| then n + 2 * Nl * njev else n) a =
      a + 2 * Nl * njev * (x.filter fun t => open Classical in decide (1e-12 < |t|)).length := by
    intro x
    induction x with
    | nil => intro a; simp
    | cons t x ih =>
      intro a
      rw [List.foldl_cons, ih, List.filter_cons]
      by_cases h : 1e-12 < |t|
      · rw [if_pos h, if_pos (by simpa using h), List.length_cons]; ring
      · rw [if_neg h, if_neg (by simpa using h)]
  unfold uccnvqeMeasures
  rw [if_pos rfl, this]
  ring

/-- C111: UCCN-PQE overwrites the count of the Jacobi solver, at most by it: amplitudes that ended up below 1e-12 are not counted.  The two agree exactly if
no final amplitude is that small (or nothing was evaluated). -/
theorem C111_uccnpqe (Nl : ℕ) (J : JacobiEnv) (tamps : List ℝ) (R : JacobiReport) (h : jacobiSolverC Nl J tamps = .ok R) :
    uccnpqeMeasures Nl R.tamps R.calls.vecs ≤ R.meas ∧
      ((∀ t ∈ R.tamps, 1e-12 < |t|) → uccnpqeMeasures Nl R.tamps R.calls.vecs = R.meas) ∧
      (0 < Nl → uccnpqeMeasures Nl R.tamps R.calls.vecs = R.meas → ∀ t ∈ R.tamps, 1e-12 < |t|) := by
  rw [C111_jacobi] at h
  cases hj : jacobiSolver J tamps with
  | error e => rw [hj] at h; cases h
  | ok r =>
    rw [hj] at h
    obtain ⟨x, E, k⟩ := r
    cases h
    simp only
    have hx : x.length = tamps.length ∧ 1 ≤ k := by
      unfold jacobiSolver at hj
      obtain ⟨E0, hE, hj⟩ := bindOk hj
      by_cases hm : J.maxIter = 0
      · rw [if_pos hm] at hj; cases hj
      · rw [if_neg hm] at hj
        obtain ⟨⟨s, k'⟩, hl, hj⟩ := bindOk hj
        cases hj
        obtain ⟨st, m, h1, h2, h3, h4, h5, _⟩ := jacobiLoop_run _ _ _ s k hl
        have hlen : ∀ i ≤ m, (st i).Sized tamps.length := by
          intro i
          induction i with
          | zero => intro _; rw [h3]; exact ⟨rfl, by simp⟩
          | succ i ih => intro hi; exact (h5 i (by omega)).sized (ih (by omega))
        refine ⟨by rw [← h4]; exact (hlen m le_rfl).1, ?_⟩
        obtain ⟨f, hf⟩ : ∃ f, J.maxIter = f + 1 := ⟨J.maxIter - 1, by omega⟩
        rw [hf] at hl
        unfold jacobiLoop at hl
        obtain ⟨s', _, hl⟩ := bindOk hl
        by_cases ht : s'.norm < J.thresh
        · rw [if_pos ht] at hl; cases hl; omega
        · rw [if_neg ht] at hl
          obtain ⟨_, m', hm', _⟩ := jacobiLoop_run _ _ _ _ _ hl
          omega
    obtain ⟨hx, hk⟩ := hx
    have hle : nonzeroParams x ≤ x.length := List.length_filter_le _ _
    unfold uccnpqeMeasures
    have e : Nl * k * (2 * tamps.length + 1) = 2 * Nl * k * x.length + Nl * k := by rw [hx]; ring
    rw [e]
    refine ⟨?_, ?_, ?_⟩
    · exact Nat.add_le_add_right (Nat.mul_le_mul_left _ hle) _
    · intro h
      have : nonzeroParams x = x.length := by
        unfold nonzeroParams
        rw [List.filter_eq_self.2 (fun t ht => by simpa using h t ht)]
      rw [this]
    · intro hN heq t ht
      have h1 : 2 * Nl * k * nonzeroParams x = 2 * Nl * k * x.length := by omega
      have h2 : nonzeroParams x = x.length := Nat.eq_of_mul_eq_mul_left (by positivity) h1
      unfold nonzeroParams at h2
      have := List.length_filter_eq_length_iff.1 h2 t ht
      simpa using this

/-- C111: the run of `C75_example`, two iterations with one amplitude, reports two residual vectors, two elements, three energies and six measurements per term. -/
theorem C111_example : jacobiSolverC 1 exampleJacobi [1] = .ok { tamps := [1 / 4], energy := 1 / 4, iters := 2, calls := ⟨3, 2, 2⟩, meas := 6 } := by
  rw [C111_jacobi, C75_example]
  simp [Except.map]

end QF
