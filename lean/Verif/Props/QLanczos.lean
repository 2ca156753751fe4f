import Verif.Props.QiteRun
import Verif.Props.QSD

/-!
C84: quantum Lanczos on the vectors kept during quantum imaginary time evolution.
-/
namespace QF
namespace QiteAlg

/-- the `i`-th kept state -/
noncomputable def keptState (A : QiteAlg) (K : ℕ) (ψ : ℕ → St) (i : ℕ) : St := ψ ((A.lanczosTimes K).getD i 0)

/-- C84: what `do_qlanczos` computes from the states `φ 0, …, φ (k-1)` -/
structure LanczosOk (n k : ℕ) (H : Op) (φ : ℕ → St) (eig : EigOracle) (M : NMat × NMat) (E : ℂ) : Prop where
  gram : GramOf n k H φ M.1 M.2
  real : E.im = 0
  ritz : ∃ c, inner n (spanState k φ c) (spanState k φ c) = 1 ∧ inner n (spanState k φ c) (H (spanState k φ c)) = E
  variational : ∀ E0 : ℝ, (∀ χ, inner n χ χ = 1 → E0 ≤ energy n H χ) → E0 ≤ E.re
  optimal : (∀ z ∈ (eig k M.1).1, 1e-15 < z.re) → ∀ c, inner n (spanState k φ c) (spanState k φ c) = 1 → E.re ≤ energy n H (spanState k φ c)

theorem qlanczos_loop {eig : EigOracle} (hE : DescEig eig) {n : ℕ} {H : Op} (hH : ∀ φ ψ, inner n φ (H ψ) = inner n (H φ) ψ) {st : QiteState} {φ : ℕ → St} {k : ℕ}
    (hd : FillData n k st.lvecs st.hlvecs φ (fun i => H (φ i))) (h1 : ∀ i < k, inner n (φ i) (φ i) = 1) :
    ∀ m ≤ k, ∃ M ev, (List.range m).foldlM (lanczosStep eig st) (zeroMats, []) = .ok (M, ev) ∧ GramOf n m H φ M.1 M.2 ∧
      (1 ≤ m → ∃ C, canonicalGeigSolve eig m M.1 M.2 true = .ok (ev, C) ∧ ev ≠ []) := by
  intro m
  induction m with
  | zero => intro _; exact ⟨zeroMats, [], rfl, ⟨by omega, by omega⟩, by omega⟩
  | succ m ih =>
    intro hm
    obtain ⟨M, ev, e, hG, -⟩ := ih (by omega)
    obtain ⟨M', f1, g1, g2⟩ := fillPairs_ok hd (fun n => (m, n)) (List.range (m + 1)) M (by
      intro x hx; have := List.mem_range.1 hx; exact ⟨by show m < k; omega, by show x < k; omega⟩)
    have hG' : GramOf n (m + 1) H φ M'.1 M'.2 := by
      have key : ∀ i < m + 1, ∀ j < m + 1, M'.1 i j = inner n (φ i) (φ j) ∧ M'.2 i j = inner n (φ i) (H (φ j)) := by
        intro i hi j hj
        by_cases hx : ∃ x ∈ List.range (m + 1), (fun n => (m, n)) x = (i, j) ∨ (fun n => (m, n)) x = (j, i)
        · exact g1 i j hx
        · have hi' : i ≠ m := by rintro rfl; exact hx ⟨j, List.mem_range.2 hj, .inl rfl⟩
          have hj' : j ≠ m := by rintro rfl; exact hx ⟨i, List.mem_range.2 hi, .inr rfl⟩
          rw [(g2 i j hx).1, (g2 i j hx).2]
          exact ⟨hG.overlap i (by omega) j (by omega), hG.ham i (by omega) j (by omega)⟩
      exact ⟨fun i hi j hj => (key i hi j hj).1, fun i hi j hj => (key i hi j hj).2⟩
    obtain ⟨e', C, s1, s2, s3, s4⟩ := C83_variational hE hH hG' true
    have hne : e' ≠ [] := by
      have := kept_pos hE hG'.overlap (fun i hi => h1 i (by omega)) (by omega)
      intro h0
      rw [h0, List.length_nil] at s3
      exact this (List.length_eq_zero_iff.1 s3.symm)
    refine ⟨M', e', ?_, hG', fun _ => ⟨C, s1, hne⟩⟩
    rw [List.range_succ, List.foldlM_append, e, except_ok_bind, List.foldlM_cons]
    unfold lanczosStep
    simp only at f1 ⊢
    rw [f1, except_ok_bind, s1, except_ok_bind]
    simp only [hne, if_false]
    rfl

theorem qlanczos_ok {eig : EigOracle} (hE : DescEig eig) {n : ℕ} {H : Op} (hH : ∀ φ ψ, inner n φ (H ψ) = inner n (H φ) ψ) {st : QiteState} {φ : ℕ → St}
    (hd : FillData n st.lvecs.length st.lvecs st.hlvecs φ (fun i => H (φ i))) (h1 : ∀ i < st.lvecs.length, inner n (φ i) (φ i) = 1) (hk : 1 ≤ st.lvecs.length) :
    ∃ M E, qlanczos eig st = .ok (M, E) ∧ LanczosOk n st.lvecs.length H φ eig M E := by
  obtain ⟨M, ev, e, hG, h⟩ := qlanczos_loop hE hH hd h1 _ le_rfl
  obtain ⟨C, s1, hne⟩ := h hk
  obtain ⟨z, l, rfl⟩ := List.exists_cons_of_ne_nil hne
  obtain ⟨e', C', t1, t2, t3, t4⟩ := C83_variational hE hH hG true
  rw [s1] at t1
  cases t1
  obtain ⟨c, c1, c2, c3, c4⟩ := t4 z (by simp)
  refine ⟨M, z, ?_, hG, c3, ⟨c, c1, c2⟩, c4, fun hfull => ?_⟩
  · unfold qlanczos
    rw [e, except_ok_bind]; rfl
  · obtain ⟨e2, C2, z', o1, o2, -, o4⟩ := C83_optimal hE hH hG hfull hk
    rw [s1] at o1
    cases o1
    obtain rfl : z = z' := by simpa using o2
    exact o4

/-- the data of the Lanczos procedure after `K` steps -/
theorem lanczos_data {A : QiteAlg} (hA : A.Ready) {σ : List Circuit} {K : ℕ} {st : QiteState} {ψ : ℕ → St} {x : ℕ → List ℝ} {ph : ℕ → ℂ}
    (h : A.Trajectory σ K st ψ x ph) : st.lvecs.length = (A.lanczosTimes K).length ∧
    FillData A.nqb st.lvecs.length st.lvecs st.hlvecs (A.keptState K ψ) (fun i => A.ham.op (A.keptState K ψ i)) ∧
    ∀ i < st.lvecs.length, inner A.nqb (A.keptState K ψ i) (A.keptState K ψ i) = 1 := by
  have l1 : st.lvecs.length = (A.lanczosTimes K).length := by
    have := congrArg List.length h.lvecs.2; simpa using this
  have l2 : st.hlvecs.length = (A.lanczosTimes K).length := by
    have := congrArg List.length h.hlvecs.2; simpa using this
  have hH := hermitian_of_real hA.ham
  refine ⟨l1, ⟨fun i hi => ?_, fun i hi => ?_, fun i _ j _ => ?_⟩, fun i hi => ?_⟩
  · refine ⟨st.lvecs[i], List.getElem?_eq_getElem hi, h.lvecs.1 _ (List.getElem_mem hi), ?_⟩
    have := congrArg (fun l => l[i]?) h.lvecs.2
    simp only [List.getElem?_map, List.getElem?_eq_getElem hi, List.getElem?_eq_getElem (l1 ▸ hi), Option.map_some, Option.some.injEq] at this
    rw [this, keptState, List.getD_eq_getElem _ _ (l1 ▸ hi)]
  · have hi' : i < st.hlvecs.length := by omega
    refine ⟨st.hlvecs[i], List.getElem?_eq_getElem hi', h.hlvecs.1 _ (List.getElem_mem hi'), ?_⟩
    have := congrArg (fun l => l[i]?) h.hlvecs.2
    simp only [List.getElem?_map, List.getElem?_eq_getElem hi', List.getElem?_eq_getElem (l1 ▸ hi), Option.map_some, Option.some.injEq] at this
    rw [this, keptState, List.getD_eq_getElem _ _ (l1 ▸ hi)]
  · rw [inner_conj]; exact (hH _ _).symm
  · unfold keptState
    rw [List.getD_eq_getElem _ _ (l1 ▸ hi)]
    exact h.norm _ (times_le (List.getElem_mem _))

/-- C84: `run` with the Lanczos procedure: the QITE part is that of C82, and the Lanczos energy is the lowest Ritz energy in the span of the kept states `ψ_t`, `t` = 0 and
the multiples of the gap.  It is never below the exact ground state and, unless a direction was dropped, never above the QITE energy of any kept state. -/
theorem C84_run {A : QiteAlg} (hA : A.Ready) {ls : LstsqOracle} (hls : IsLstsq ls) {par : Option Schedule} (hp : A.GoodBuild par) (hdb : A.db ≠ 0)
    {σ : List Circuit} (hσ : ∀ c ∈ σ, c.PauliString A.nqb) (hd : A.StepDefined σ) (hl : A.doLanczos = true) (hg : A.lanczosGap ≠ 0)
    (N : SQOpPool.NextPerm) (o : SQOperator.DescSort) (so : QubitOperator.SortOracle) (fuel : ℕ) {eig : EigOracle} (hE : DescEig eig)
    (hpool : A.buildExpansionPool N o so fuel = .ok (poolOf σ)) :
    let K := (pyTrunc (A.beta / A.db)).toNat
    ∃ st ψ x ph M E, A.run N o so fuel ls eig par = .ok (st, poolOf σ, energy A.nqb A.ham.op (ψ K), some (M, E)) ∧
      A.Trajectory σ K st ψ x ph ∧ LanczosOk A.nqb (A.lanczosTimes K).length A.ham.op (A.keptState K ψ) eig M E ∧
      ((∀ z ∈ (eig (A.lanczosTimes K).length M.1).1, 1e-15 < z.re) → ∀ t ∈ A.lanczosTimes K, E.re ≤ energy A.nqb A.ham.op (ψ t)) := by
  intro K
  obtain ⟨q, e, w, n, f, h1, -⟩ := trajectory_zero hA σ
  obtain ⟨q', e2, -⟩ := expVal_any hA hp w n
  obtain ⟨st, ψ, x, ph, e3, h3⟩ := C82_evolve hA hls hp hdb hσ hd (fun _ => hg) (pyTrunc (A.beta / A.db) + 1)
  rw [add_sub_cancel_right] at h3
  obtain ⟨d1, d2, d3⟩ := lanczos_data hA h3
  have hpos : 1 ≤ st.lvecs.length := by rw [d1]; simp [lanczosTimes, hl]
  obtain ⟨M, E, e4, hL⟩ := qlanczos_ok hE (hermitian_of_real hA.ham) d2 d3 hpos
  refine ⟨st, ψ, x, ph, M, E, ?_, h3, by rw [← d1]; exact hL, ?_⟩
  · unfold run nbeta
    rw [if_neg hdb, except_ok_bind, e, except_ok_bind, e2, except_ok_bind]
    simp only
    rw [hpool, except_ok_bind]
    have : (inner A.nqb q.psi (A.ham.op q.psi)).re = energy A.nqb A.ham.op A.reference := by rw [f]; rfl
    rw [this, e3, except_ok_bind, h3.ekb, List.range_succ, List.map_append, List.map_singleton, List.getLast?_append]
    simp only [List.getLast?_singleton, Option.some_or, Option.elim, pure, Except.pure, except_ok_bind, hl, if_true, e4]
    rfl
  · intro hfull t ht
    obtain ⟨i, hi, rfl⟩ := List.getElem_of_mem ht
    have hi' : i < st.lvecs.length := by rw [d1]; exact hi
    have := hL.optimal (by rw [d1]; exact hfull) (fun j => if j = i then 1 else 0)
    rw [single_span hi'] at this
    have h := this (d3 i hi')
    unfold keptState at h
    rwa [List.getD_eq_getElem _ _ hi] at h

end QiteAlg
end QF
