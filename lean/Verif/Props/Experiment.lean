import Verif.Model.Experiment
import Verif.Props.ExpVal
import Verif.Props.StatePrep
import Mathlib.Probability.Moments.Variance
import Mathlib.Probability.Independence.InfinitePi
import Mathlib.Probability.ProbabilityMassFunction.Constructions
import Mathlib.Probability.ProbabilityMassFunction.Integrals

/-!
C78: `Experiment`.
-/
namespace QF

open MeasureTheory ProbabilityTheory

/-- the data of an experiment: the preparation circuit acts on the register with gates the simulator applies exactly, and the operator
is a combination of Pauli strings of the register -/
structure Experiment.Ready (E : Experiment) : Prop where
  fits : E.generator.Fits E.nQubits
  exact : ∀ g ∈ E.generator, ExactGate g
  strings : ∀ t ∈ E.operator, t.2.PauliString E.nQubits
  mode : E.prepareEachTime = false

/-- the prepared state -/
noncomputable def Experiment.state (E : Experiment) : St := E.generator.op (Pi.single 0 1)

theorem Experiment.prepared {E : Experiment} (h : E.Ready) : ∃ q, (Computer.init E.nQubits).applyCircuit E.generator = .ok q ∧ q.WF ∧
    q.nqubit = E.nQubits ∧ q.psi = E.state ∧ inner E.nQubits E.state E.state = 1 := by
  obtain ⟨q, e1, w1, n1, p1⟩ := applyCircuit_exact (q := Computer.init E.nQubits) E.generator (Computer.WF.init _) h.fits h.exact
  refine ⟨q, e1, w1, n1, ?_, ?_⟩
  · rw [p1, (C60_init E.nQubits).2]; rfl
  · unfold Experiment.state
    rw [inner_circuit h.fits fun g hg => (h.exact g hg).unitary]
    unfold inner
    rw [Finset.sum_eq_single 0] <;> simp +contextual

theorem op_eq_sum_inner (n : ℕ) (A : QubitOperator) (ψ : St) : inner n ψ (A.op ψ) = (A.map fun t => t.1 * inner n ψ (t.2.op ψ)).sum := by
  unfold QubitOperator.op
  induction A with
  | nil => simp [inner]
  | cons t A ih =>
    rw [List.map_cons, List.sum_cons, List.map_cons, List.sum_cons, LinearMap.add_apply, inner_add_right, LinearMap.smul_apply, inner_smul_right, ih]

/-- C78: `perfect_experimental_avg` is the real part of `⟨ψ|O|ψ⟩`, `ψ` the prepared state. -/
theorem C78_perfect (E : Experiment) (h : E.Ready) : E.perfectAvg = .ok (inner E.nQubits E.state (E.operator.op E.state)).re := by
  obtain ⟨q, e1, w1, n1, p1, _⟩ := Experiment.prepared h
  have loop : ∀ (A : QubitOperator) (z : ℂ) (q' : Computer), (∀ t ∈ A, t.2.PauliString E.nQubits) → SameState q q' →
      ∃ q'', A.foldlM (fun (st : ℂ × Computer) t => (do
        let (v, q) ← st.2.perfectMeasureCircuit t.2
        pure (st.1 + t.1 * (v : ℝ), q) : Except Exc (ℂ × Computer))) (z, q') =
        .ok (z + (A.map fun t => t.1 * inner E.nQubits E.state (t.2.op E.state)).sum, q'') := by
    intro A
    induction A with
    | nil => intro z q' _ _; exact ⟨q', by simp [pure, Except.pure]⟩
    | cons t A ih =>
      intro z q' hA hq
      have hn : q'.nqubit = E.nQubits := hq.nqubit.trans n1
      obtain ⟨v, q2, f1, f2, f3⟩ := C31_perfect_measure q' t.2 hq.wf (by rw [hn]; exact hA t (by simp))
      rw [hn, hq.psi, p1] at f2
      obtain ⟨q3, f4⟩ := ih (z + t.1 * (v : ℂ)) q2 (fun x hx => hA x (by simp [hx])) (hq.trans f3)
      refine ⟨q3, ?_⟩
      rw [List.foldlM_cons]
      simp only [f1, except_ok_bind, pure, Except.pure] at f4 ⊢
      rw [f4, f2, List.map_cons, List.sum_cons, add_assoc]
  obtain ⟨q2, f⟩ := loop E.operator 0 q h.strings (.refl w1)
  unfold Experiment.perfectAvg
  rw [h.mode, if_neg (by simp), e1, except_ok_bind, f, op_eq_sum_inner]
  simp [bind, Except.bind, pure, Except.pure]

/-- C78: with `prepare_each_time=True` both methods raise. -/
theorem C78_prepare_each_time (E : Experiment) (h : E.prepareEachTime = true) (s : ℕ → Sampler) :
    E.perfectAvg = .error .exception ∧ E.experimentalAvg s = .error .exception := by
  unfold Experiment.perfectAvg Experiment.experimentalAvg
  rw [h]; exact ⟨rfl, rfl⟩

theorem signValue_sum_split (c : Circuit) (n : ℕ) (w : ℕ → ℝ) : ∑ J ∈ Finset.range n, signValue c J * w J =
    ∑ J ∈ (Finset.range n).filter (fun J => signValue c J = 1), w J - ∑ J ∈ (Finset.range n).filter (fun J => signValue c J = -1), w J := by
  rw [Finset.sum_filter, Finset.sum_filter, ← Finset.sum_sub_distrib]
  refine Finset.sum_congr rfl fun J _ => ?_
  rcases signValue_pm c J with h | h <;> rw [h] <;> norm_num

theorem sum_split (c : Circuit) (n : ℕ) (w : ℕ → ℝ) : ∑ J ∈ Finset.range n, w J =
    ∑ J ∈ (Finset.range n).filter (fun J => signValue c J = 1), w J + ∑ J ∈ (Finset.range n).filter (fun J => signValue c J = -1), w J := by
  rw [Finset.sum_filter, Finset.sum_filter, ← Finset.sum_add_distrib]
  refine Finset.sum_congr rfl fun J _ => ?_
  rcases signValue_pm c J with h | h <;> rw [h] <;> norm_num

theorem list_sum_getD (w : List ℝ) : w.sum = ∑ J ∈ Finset.range w.length, w.getD J 0 := by
  induction w with
  | nil => rfl
  | cons a w ih =>
    rw [List.sum_cons, List.length_cons, Finset.sum_range_succ', ih]
    simp [add_comm]

/-- the weights `measure_circuit` draws from: the probabilities of the basis states after the rotation to the Z basis -/
noncomputable def measWeights (n : ℕ) (c : Circuit) (ψ : St) : List ℝ := (List.range (2 ^ n)).map fun J => ‖Circuit.op (c.map rotOf) ψ J‖ ^ 2

theorem probs_list {q : Computer} (hq : q.WF) : q.probs = (List.range (2 ^ q.nqubit)).map fun J => ‖q.psi J‖ ^ 2 := by
  apply List.ext_getElem
  · simp [Computer.probs, hq.len]
  · intro J h1 h2
    have hJ : J < q.coeff.length := by simpa [Computer.probs] using h1
    simp only [Computer.probs, List.getElem_map, List.getElem_range, Computer.psi, vec, List.getD_eq_getElem?_getD, List.getElem?_eq_getElem hJ,
      Option.getD_some]
    rw [← Complex.normSq_eq_conj_mul_self, Complex.ofReal_re, Complex.normSq_eq_norm_sq]

/-- what `measure_circuit` returns -/
theorem measure_run (q : Computer) (c : Circuit) (hq : q.WF) (hc : c.PauliString q.nqubit) (s : Sampler) (N : ℕ) :
    ∃ q', q.measureCircuit s c N = .ok ((List.range N).map fun k => signValue c (s.draw (measWeights q.nqubit c q.psi) k), q') ∧ SameState q q' := by
  have hl : ∀ g ∈ c, IsXYZ g.label := fun g hg => (hc.gates g hg).letter
  obtain ⟨q1, f1, f2, f3, f4, _⟩ := rotate_state q c hq hc
  refine ⟨{ q1 with coeff := q.coeff }, ?_, ⟨rfl, f3, WF.restore hq f2 f3⟩⟩
  unfold Computer.measureCircuit
  rw [rotator_eq hl, except_ok_bind, f1, except_ok_bind, probs_list f2, f3, f4]; rfl

/-- these weights are a probability distribution, and the mean of the sign is the expectation value -/
theorem measWeights_ok (q : Computer) (c : Circuit) (hq : q.WF) (hc : c.PauliString q.nqubit) (h1 : inner q.nqubit q.psi q.psi = 1) :
    (∀ x ∈ measWeights q.nqubit c q.psi, 0 ≤ x) ∧ (measWeights q.nqubit c q.psi).length = 2 ^ q.nqubit ∧ (measWeights q.nqubit c q.psi).sum = 1 ∧
      ∑ J ∈ Finset.range (2 ^ q.nqubit), signValue c J * (measWeights q.nqubit c q.psi).getD J 0 = (inner q.nqubit q.psi (c.op q.psi)).re := by
  have hl : ∀ g ∈ c, IsXYZ g.label := fun g hg => (hc.gates g hg).letter
  obtain ⟨r, q1, e0, e1, b1⟩ := C32_born_rule q c 1 (.inl rfl) hq hc
  obtain ⟨r', q1', e0', e1', b2⟩ := C32_born_rule q c (-1) (.inr rfl) hq hc
  rw [e0] at e0'; cases e0'
  rw [e1] at e1'; cases e1'
  obtain ⟨q2, f1, f2, f3, f4, _⟩ := rotate_state q c hq hc
  have : q1 = q2 := by
    rw [rotator_eq hl] at e0; cases e0
    rw [f1] at e1; cases e1; rfl
  subst this
  have hw : q1.probs = measWeights q.nqubit c q.psi := by rw [probs_list f2, f3, f4]; rfl
  have hlen : (measWeights q.nqubit c q.psi).length = 2 ^ q.nqubit := by simp [measWeights]
  rw [hw] at b1 b2
  have c1 := congrArg Complex.re b1
  have c2 := congrArg Complex.re b2
  rw [Complex.ofReal_re, inner_smul_right, inner_add_right, inner_smul_right, h1] at c1 c2
  simp only [Complex.ofReal_one, one_mul, Complex.ofReal_neg, neg_mul] at c1 c2
  have k1 : ∀ z : ℂ, ((1 / 2 : ℂ) * (1 + z)).re = (1 + z.re) / 2 := by
    intro z; rw [show (1 / 2 : ℂ) = ((1 / 2 : ℝ) : ℂ) by norm_num, Complex.re_ofReal_mul]; simp; ring
  rw [k1] at c1
  rw [k1, Complex.neg_re] at c2
  refine ⟨?_, hlen, ?_, ?_⟩
  · intro x hx
    obtain ⟨z, _, rfl⟩ := List.mem_map.1 hx
    positivity
  · rw [list_sum_getD, hlen, sum_split c, c1, c2]; ring
  · rw [signValue_sum_split, c1, c2]; ring

theorem zipIdx_sum {α M : Type} [AddCommMonoid M] (l : List α) (f : α → ℕ → M) (j : ℕ) :
    ((l.zipIdx j).map fun p => f p.1 p.2).sum = ∑ k : Fin l.length, f l[k] (j + k) := by
  induction l generalizing j with
  | nil => simp
  | cons a l ih =>
    rw [List.zipIdx_cons, List.map_cons, List.sum_cons, ih]
    show _ = ∑ k : Fin (l.length + 1), f (a :: l)[k] (j + k)
    rw [Fin.sum_univ_succ]
    simp [add_assoc, add_comm 1]

theorem list_sum_fin {α M : Type} [AddCommMonoid M] (l : List α) (f : α → M) : (l.map f).sum = ∑ k : Fin l.length, f l[k] := by
  induction l with
  | nil => simp
  | cons a l ih =>
    rw [List.map_cons, List.sum_cons, ih]
    show _ = ∑ k : Fin (l.length + 1), f (a :: l)[k]
    rw [Fin.sum_univ_succ]
    simp

/-- what `experimental_avg` computes: the average of the signs of the drawn indices, combined with the coefficients -/
theorem Experiment.avg_form {E : Experiment} (h : E.Ready) (s : ℕ → Sampler) (hN : E.nSamples ≠ 0) : E.experimentalAvg s =
      .ok (∑ k : Fin E.operator.length, ∑ i ∈ Finset.range E.nSamples, E.operator[k].1.re / E.nSamples *
        signValue E.operator[k].2 ((s k).draw (measWeights E.nQubits E.operator[k].2 E.state) i)) := by
  obtain ⟨q, e1, w1, n1, p1, hn1⟩ := Experiment.prepared h
  let v : ℂ × Circuit → ℕ → ℂ := fun t k => t.1 * ((((List.range E.nSamples).map fun i =>
    signValue t.2 ((s k).draw (measWeights E.nQubits t.2 E.state) i)).sum : ℝ) : ℂ)
  have loop : ∀ (A : QubitOperator) (j : ℕ) (z : ℂ) (q' : Computer), (∀ t ∈ A, t.2.PauliString E.nQubits) → SameState q q' →
      ∃ q'', (A.zipIdx j).foldlM (E.sampleStep s) (z, q') = .ok (z + ((A.zipIdx j).map fun p => v p.1 p.2).sum, q'') := by
    intro A
    induction A with
    | nil => intro j z q' _ _; exact ⟨q', by simp [pure, Except.pure]⟩
    | cons t A ih =>
      intro j z q' hA hq
      have hn : q'.nqubit = E.nQubits := hq.nqubit.trans n1
      obtain ⟨q2, f1, f3⟩ := measure_run q' t.2 hq.wf (by rw [hn]; exact hA t (by simp)) (s j) E.nSamples
      rw [hn, hq.psi, p1] at f1
      obtain ⟨q3, f4⟩ := ih (j + 1) (z + v t j) q2 (fun x hx => hA x (by simp [hx])) (hq.trans f3)
      refine ⟨q3, ?_⟩
      rw [List.zipIdx_cons, List.foldlM_cons]
      have : E.sampleStep s (z, q') (t, j) = .ok (z + v t j, q2) := by
        unfold Experiment.sampleStep
        simp only [f1, except_ok_bind, pure, Except.pure]; rfl
      rw [this, except_ok_bind, f4, List.map_cons, List.sum_cons, add_assoc]
  obtain ⟨q2, f⟩ := loop E.operator 0 0 q h.strings (.refl w1)
  unfold Experiment.experimentalAvg
  rw [h.mode, if_neg (by simp), e1, except_ok_bind, f, except_ok_bind, if_neg hN, zipIdx_sum]
  simp only [pure, Except.pure, Except.ok.injEq, zero_add]
  rw [show ((E.nSamples : ℕ) : ℂ) = ((E.nSamples : ℝ) : ℂ) by push_cast; rfl, Complex.div_ofReal_re, Complex.re_sum, Finset.sum_div]
  refine Finset.sum_congr rfl fun k _ => ?_
  show (E.operator[k].1 * (_ : ℂ)).re / _ = _
  rw [Complex.re_mul_ofReal, ← Finset.mul_sum, list_range_sum]
  ring

/-- C78: without samples `experimental_avg` raises ZeroDivisionError. -/
theorem C78_no_samples (E : Experiment) (h : E.Ready) (s : ℕ → Sampler) (hN : E.nSamples = 0) : E.experimentalAvg s = .error .zeroDivisionError := by
  obtain ⟨q, e1, w1, n1, p1, hn1⟩ := Experiment.prepared h
  have loop : ∀ (A : QubitOperator) (j : ℕ) (z : ℂ) (q' : Computer), (∀ t ∈ A, t.2.PauliString E.nQubits) → SameState q q' →
      ∃ r, (A.zipIdx j).foldlM (E.sampleStep s) (z, q') = .ok r := by
    intro A
    induction A with
    | nil => intro j z q' _ _; exact ⟨_, rfl⟩
    | cons t A ih =>
      intro j z q' hA hq
      have hn : q'.nqubit = E.nQubits := hq.nqubit.trans n1
      obtain ⟨q2, f1, f3⟩ := measure_run q' t.2 hq.wf (by rw [hn]; exact hA t (by simp)) (s j) E.nSamples
      rw [List.zipIdx_cons, List.foldlM_cons]
      unfold Experiment.sampleStep
      simp only [f1, except_ok_bind, pure, Except.pure]
      exact ih _ _ q2 (fun x hx => hA x (by simp [hx])) (hq.trans f3)
  obtain ⟨r, f⟩ := loop E.operator 0 0 q h.strings (.refl w1)
  unfold Experiment.experimentalAvg
  rw [h.mode, if_neg (by simp), e1, except_ok_bind, f, except_ok_bind, if_pos hN]

/-! ### statistics of the samples -/

/-- independent draws with the law of `discrete_distribution`: every draw from weights `w` is `J` with probability `w J / sum w`, and
draws of different terms or different samples are independent, whatever weights the terms use -/
structure IdealSampler {Ω : Type} [MeasurableSpace Ω] (μ : Measure Ω) (s : Ω → ℕ → Sampler) : Prop where
  meas : ∀ w k i, Measurable fun ω => (s ω k).draw w i
  law : ∀ w : List ℝ, (∀ x ∈ w, 0 ≤ x) → 0 < w.sum → ∀ k i J, μ.real {ω | (s ω k).draw w i = J} = w.getD J 0 / w.sum
  indep : ∀ W : ℕ → List ℝ, iIndepFun (fun (p : ℕ × ℕ) ω => (s ω p.1).draw (W p.1) p.2) μ

theorem draw_lt {w : List ℝ} (h0 : ∀ x ∈ w, 0 ≤ x) (h1 : w.sum = 1) (s : Sampler) (k : ℕ) : s.draw w k < w.length := by
  have hp : ∃ x ∈ w, 0 < x := by
    by_contra hn
    push Not at hn
    have : w.sum ≤ 0 := by
      have := List.sum_nonneg (l := w.map (- ·)) (by
        intro x hx
        obtain ⟨y, hy, rfl⟩ := List.mem_map.1 hx
        have := hn y hy; linarith)
      rw [show (w.map (- ·)).sum = -w.sum from List.sum_neg w ▸ rfl] at this
      linarith
    linarith
  by_contra hn
  have := s.valid w h0 hp k
  rw [List.getD_eq_default _ _ (not_lt.1 hn)] at this
  exact lt_irrefl _ this

/-- the mean of a function of one draw -/
theorem IdealSampler.mean {Ω : Type} [MeasurableSpace Ω] {μ : Measure Ω} [IsProbabilityMeasure μ] {s : Ω → ℕ → Sampler} (hs : IdealSampler μ s)
    {w : List ℝ} (h0 : ∀ x ∈ w, 0 ≤ x) (h1 : w.sum = 1) (k i : ℕ) (f : ℕ → ℝ) :
    ∫ ω, f ((s ω k).draw w i) ∂μ = ∑ J ∈ Finset.range w.length, f J * w.getD J 0 := by
  have e : (fun ω => f ((s ω k).draw w i)) = fun ω => ∑ J ∈ Finset.range w.length, {ω | (s ω k).draw w i = J}.indicator (fun _ => f J) ω := by
    funext ω
    rw [Finset.sum_eq_single ((s ω k).draw w i)]
    · simp
    · intro J _ hJ
      rw [Set.indicator_of_notMem]
      exact fun h => hJ (Eq.symm h)
    · intro h
      exact absurd (Finset.mem_range.2 (draw_lt h0 h1 (s ω k) i)) h
  have hm : ∀ J, MeasurableSet {ω | (s ω k).draw w i = J} := fun J => hs.meas w k i (measurableSet_singleton J)
  rw [e, integral_finsetSum]
  · refine Finset.sum_congr rfl fun J _ => ?_
    rw [integral_indicator_const _ (hm J), hs.law w h0 (by rw [h1]; norm_num) k i J, h1, div_one, smul_eq_mul, mul_comm]
  · intro J _
    exact (integrable_const _).indicator (hm J)

/-- C78: with independent draws following the Born rule, `experimental_avg` is an unbiased estimate of the real part of `⟨ψ|O|ψ⟩`, and
its variance is `∑ (Re c)² (1 - ⟨P⟩²) / N_samples`. -/
theorem C78_statistics (E : Experiment) (h : E.Ready) (hN : E.nSamples ≠ 0) {Ω : Type} [MeasurableSpace Ω] (μ : Measure Ω) [IsProbabilityMeasure μ]
    (s : Ω → ℕ → Sampler) (hs : IdealSampler μ s) : ∃ avg : Ω → ℝ, (∀ ω, E.experimentalAvg (s ω) = .ok (avg ω)) ∧
      ∫ ω, avg ω ∂μ = (inner E.nQubits E.state (E.operator.op E.state)).re ∧
      variance avg μ = (E.operator.map fun t => t.1.re ^ 2 * (1 - (inner E.nQubits E.state (t.2.op E.state)).re ^ 2)).sum / E.nSamples := by
  obtain ⟨q, e1, w1, n1, p1, hn1⟩ := Experiment.prepared h
  let W : ℕ → List ℝ := fun k => if hk : k < E.operator.length then measWeights E.nQubits E.operator[k].2 E.state else []
  have hWk : ∀ k : Fin E.operator.length, W k = measWeights E.nQubits E.operator[k].2 E.state := fun k => dif_pos k.2
  have hst : ∀ k : Fin E.operator.length, E.operator[k].2.PauliString E.nQubits := fun k => h.strings _ (List.getElem_mem _)
  have hW : ∀ k : Fin E.operator.length, (∀ x ∈ W k, 0 ≤ x) ∧ (W k).length = 2 ^ E.nQubits ∧ (W k).sum = 1 ∧
      ∑ J ∈ Finset.range (2 ^ E.nQubits), signValue E.operator[k].2 J * (W k).getD J 0 = (inner E.nQubits E.state (E.operator[k].2.op E.state)).re := by
    intro k
    have := measWeights_ok q E.operator[k].2 w1 (by rw [n1]; exact hst k) (by rw [n1, p1]; exact hn1)
    rw [n1, p1, ← hWk k] at this
    exact this
  let ex : Fin E.operator.length → ℝ := fun k => (inner E.nQubits E.state (E.operator[k].2.op E.state)).re
  let X : Fin E.operator.length × ℕ → Ω → ℝ := fun p ω => signValue E.operator[p.1].2 ((s ω p.1).draw (W p.1) p.2)
  let Y : Fin E.operator.length × ℕ → Ω → ℝ := fun p ω => E.operator[p.1].1.re / E.nSamples * X p ω
  let S : Finset (Fin E.operator.length × ℕ) := Finset.univ ×ˢ Finset.range E.nSamples
  have hXm : ∀ p, Measurable (X p) := fun p => (measurable_from_top (f := signValue E.operator[p.1].2)).comp (hs.meas _ _ _)
  have hXb : ∀ p ω, ‖X p ω‖ ≤ 1 := by
    intro p ω
    rcases signValue_pm E.operator[p.1].2 ((s ω p.1).draw (W p.1) p.2) with h | h <;> simp only [X, h] <;> norm_num
  have hX2 : ∀ p, MemLp (X p) 2 μ := fun p => MemLp.of_bound (hXm p).aestronglyMeasurable 1 (.of_forall (hXb p))
  have hXe : ∀ p, ∫ ω, X p ω ∂μ = ex p.1 := by
    intro p
    rw [hs.mean (hW p.1).1 (hW p.1).2.2.1 p.1 p.2 (signValue E.operator[p.1].2), (hW p.1).2.1, (hW p.1).2.2.2]
  have hXv : ∀ p, variance (X p) μ = 1 - ex p.1 ^ 2 := by
    intro p
    rw [variance_eq_sub (hX2 p), hXe]
    congr 1
    have : X p ^ 2 = fun _ => 1 := by
      funext ω
      rcases signValue_pm E.operator[p.1].2 ((s ω p.1).draw (W p.1) p.2) with h | h <;> simp only [X, Pi.pow_apply, h] <;> norm_num
    rw [this]; simp
  have hav : ∀ ω, E.experimentalAvg (s ω) = .ok ((∑ p ∈ S, Y p) ω) := by
    intro ω
    rw [E.avg_form h (s ω) hN, Finset.sum_apply, Finset.sum_product]
    congr 1
    refine Finset.sum_congr rfl fun k _ => Finset.sum_congr rfl fun i _ => ?_
    rw [← hWk k]
  refine ⟨∑ p ∈ S, Y p, hav, ?_, ?_⟩
  · simp only [Finset.sum_apply]
    rw [integral_finsetSum _ fun p _ => ((hX2 p).integrable (by norm_num)).const_mul _]
    have hR : (E.nSamples : ℝ) ≠ 0 := by exact_mod_cast hN
    have e : ∀ p ∈ S, ∫ ω, Y p ω ∂μ = E.operator[p.1].1.re / E.nSamples * ex p.1 := by
      intro p _
      show ∫ ω, E.operator[p.1].1.re / E.nSamples * X p ω ∂μ = _
      rw [integral_const_mul, hXe]
    rw [Finset.sum_congr rfl e, Finset.sum_product, op_eq_sum_inner, list_sum_fin, Complex.re_sum]
    refine Finset.sum_congr rfl fun k _ => ?_
    show ∑ y ∈ Finset.range E.nSamples, E.operator[k].1.re / E.nSamples * ex k = _
    rw [Finset.sum_const, Finset.card_range, nsmul_eq_mul]
    have hre : (inner E.nQubits E.state (E.operator[k].2.op E.state)).im = 0 := by
      obtain ⟨v, _, _, hv, _⟩ := C31_perfect_measure q E.operator[k].2 w1 (by rw [n1]; exact hst k)
      rw [n1, p1] at hv
      rw [← hv, Complex.ofReal_im]
    rw [Complex.mul_re, hre]
    field_simp
    simp [ex]
  · have hR : (E.nSamples : ℝ) ≠ 0 := by exact_mod_cast hN
    rw [IndepFun.variance_sum]
    · have e : ∀ p ∈ S, variance (Y p) μ = (E.operator[p.1].1.re / E.nSamples) ^ 2 * (1 - ex p.1 ^ 2) := by
        intro p _
        show variance (fun ω => E.operator[p.1].1.re / E.nSamples * X p ω) μ = _
        rw [variance_const_mul, hXv]
      rw [Finset.sum_congr rfl e, Finset.sum_product, list_sum_fin, Finset.sum_div]
      refine Finset.sum_congr rfl fun k _ => ?_
      show ∑ y ∈ Finset.range E.nSamples, (E.operator[k].1.re / E.nSamples) ^ 2 * (1 - ex k ^ 2) = _
      rw [Finset.sum_const, Finset.card_range, nsmul_eq_mul]
      field_simp
      simp [ex]
    · intro p _
      exact (hX2 p).const_mul _
    · intro p _ p' _ hne
      have hi := (hs.indep W).indepFun (i := ((p.1 : ℕ), p.2)) (j := ((p'.1 : ℕ), p'.2)) (by
        intro e
        rw [Prod.mk.injEq] at e
        exact hne (Prod.ext (Fin.ext e.1) e.2))
      exact hi.comp (φ := fun J => E.operator[p.1].1.re / E.nSamples * signValue E.operator[p.1].2 J)
        (ψ := fun J => E.operator[p'.1].1.re / E.nSamples * signValue E.operator[p'.1].2 J) measurable_from_top measurable_from_top

/-- C78: whatever is drawn, the result is at most `∑ |Re c|` in size. -/
theorem C78_bound (E : Experiment) (h : E.Ready) (hN : E.nSamples ≠ 0) (s : ℕ → Sampler) :
    ∃ v, E.experimentalAvg s = .ok v ∧ |v| ≤ (E.operator.map fun t => |t.1.re|).sum := by
  refine ⟨_, E.avg_form h s hN, ?_⟩
  have hR : (0 : ℝ) < E.nSamples := by exact_mod_cast Nat.pos_of_ne_zero hN
  rw [list_sum_fin]
  refine (Finset.abs_sum_le_sum_abs _ _).trans (Finset.sum_le_sum fun k _ => ?_)
  refine (Finset.abs_sum_le_sum_abs _ _).trans ?_
  have : ∀ i ∈ Finset.range E.nSamples, |E.operator[k].1.re / E.nSamples *
      signValue E.operator[k].2 ((s k).draw (measWeights E.nQubits E.operator[k].2 E.state) i)| = |E.operator[k].1.re| / E.nSamples := by
    intro i _
    rw [abs_mul, abs_div, abs_of_pos hR]
    rcases signValue_pm E.operator[k].2 ((s k).draw (measWeights E.nQubits E.operator[k].2 E.state) i) with h | h <;> rw [h] <;> simp
  rw [Finset.sum_congr rfl this, Finset.sum_const, Finset.card_range, nsmul_eq_mul]
  apply le_of_eq
  field_simp

/-- C78: in a state in which every string has a definite value (±1), `experimental_avg` is exact whatever is drawn. -/
theorem C78_definite (E : Experiment) (h : E.Ready) (hN : E.nSamples ≠ 0) (s : ℕ → Sampler)
    (hd : ∀ t ∈ E.operator, t.2.op E.state = E.state ∨ t.2.op E.state = -E.state) : E.experimentalAvg s = E.perfectAvg := by
  obtain ⟨q, e1, w1, n1, p1, hn1⟩ := Experiment.prepared h
  have hR : (E.nSamples : ℝ) ≠ 0 := by exact_mod_cast hN
  rw [C78_perfect E h, E.avg_form h s hN, op_eq_sum_inner, list_sum_fin, Complex.re_sum]
  congr 1
  refine Finset.sum_congr rfl fun k _ => ?_
  have hst : E.operator[k].2.PauliString E.nQubits := h.strings _ (List.getElem_mem _)
  obtain ⟨a1, a2, a3, a4⟩ := measWeights_ok q E.operator[k].2 w1 (by rw [n1]; exact hst) (by rw [n1, p1]; exact hn1)
  rw [n1, p1] at a1 a2 a3 a4
  generalize hw : measWeights E.nQubits E.operator[k].2 E.state = w at *
  obtain ⟨ε, hε, he⟩ : ∃ ε : ℝ, (ε = 1 ∨ ε = -1) ∧ inner E.nQubits E.state (E.operator[k].2.op E.state) = ε := by
    rcases hd _ (List.getElem_mem k.2) with hk | hk
    · exact ⟨1, .inl rfl, by rw [show E.operator[k].2.op E.state = E.state from hk, hn1]; simp⟩
    · refine ⟨-1, .inr rfl, ?_⟩
      rw [show E.operator[k].2.op E.state = -E.state from hk, show -E.state = (-1 : ℂ) • E.state by simp, inner_smul_right, hn1]; simp
  rw [he, Complex.ofReal_re] at a4
  have hz : ∑ J ∈ Finset.range (2 ^ E.nQubits), (1 - ε * signValue E.operator[k].2 J) * w.getD J 0 = 0 := by
    have : ∀ J ∈ Finset.range (2 ^ E.nQubits), (1 - ε * signValue E.operator[k].2 J) * w.getD J 0 = w.getD J 0 - ε * (signValue E.operator[k].2 J * w.getD J 0) := by
      intro J _; ring
    rw [Finset.sum_congr rfl this, Finset.sum_sub_distrib, ← Finset.mul_sum, a4, ← a2, ← list_sum_getD, a3]
    rcases hε with rfl | rfl <;> norm_num
  have hnn : ∀ J, 0 ≤ w.getD J 0 := by
    intro J
    by_cases hJ : J < w.length
    · rw [List.getD_eq_getElem _ _ hJ]; exact a1 _ (List.getElem_mem hJ)
    · rw [List.getD_eq_default _ _ (not_lt.1 hJ)]
  have hall := (Finset.sum_eq_zero_iff_of_nonneg (fun J _ => mul_nonneg (by
    rcases hε with rfl | rfl <;> rcases signValue_pm E.operator[k].2 J with h | h <;> rw [h] <;> norm_num) (hnn J))).1 hz
  have hs : ∀ i, signValue E.operator[k].2 ((s k).draw w i) = ε := by
    intro i
    have hlt := draw_lt a1 a3 (s k) i
    have hp : ∃ x ∈ w, 0 < x := by
      by_contra hn
      push Not at hn
      have : ∀ J ∈ Finset.range w.length, w.getD J 0 = 0 := by
        intro J hJ
        rw [List.getD_eq_getElem _ _ (Finset.mem_range.1 hJ)]
        exact le_antisymm (hn _ (List.getElem_mem _)) (a1 _ (List.getElem_mem _))
      rw [list_sum_getD, Finset.sum_congr rfl this] at a3
      simp at a3
    have hv := (s k).valid w a1 hp i
    have h0 := hall ((s k).draw w i) (Finset.mem_range.2 (a2 ▸ hlt))
    rcases mul_eq_zero.1 h0 with h0 | h0
    · rcases hε with rfl | rfl <;> rcases signValue_pm E.operator[k].2 ((s k).draw w i) with h | h <;> rw [h] at h0 ⊢ <;> norm_num at h0
    · exact absurd h0 hv.ne'
  simp only [hs, Finset.sum_const, Finset.card_range, nsmul_eq_mul]
  show _ = (E.operator[k].1 * inner E.nQubits E.state (E.operator[k].2.op E.state)).re
  rw [he, Complex.re_mul_ofReal]
  field_simp

/-! ### the hypotheses can be met -/

/-- the distribution of `discrete_distribution` with weights `w` (index 0 if there is no positive weight) -/
noncomputable def weightMeasure (w : List ℝ) : Measure ℕ :=
  open Classical in
  if (∀ x ∈ w, 0 ≤ x) ∧ 0 < w.sum then ∑ J ∈ Finset.range w.length, ENNReal.ofReal (w.getD J 0 / w.sum) • Measure.dirac J else Measure.dirac 0

theorem list_getD_nonneg {w : List ℝ} (h0 : ∀ x ∈ w, 0 ≤ x) (J : ℕ) : 0 ≤ w.getD J 0 := by
  by_cases hJ : J < w.length
  · rw [List.getD_eq_getElem _ _ hJ]; exact h0 _ (List.getElem_mem hJ)
  · rw [List.getD_eq_default _ _ (not_lt.1 hJ)]

theorem weightMeasure_apply {w : List ℝ} (h0 : ∀ x ∈ w, 0 ≤ x) (h1 : 0 < w.sum) (S : Set ℕ) [DecidablePred (· ∈ S)] :
    weightMeasure w S = ENNReal.ofReal (∑ J ∈ Finset.range w.length, if J ∈ S then w.getD J 0 / w.sum else 0) := by
  have hd : ∀ J, 0 ≤ w.getD J 0 / w.sum := fun J => div_nonneg (list_getD_nonneg h0 J) h1.le
  unfold weightMeasure
  rw [if_pos ⟨h0, h1⟩, ENNReal.ofReal_sum_of_nonneg (by intro J _; split_ifs; exacts [hd J, le_rfl])]
  rw [Measure.finsetSum_apply]
  refine Finset.sum_congr rfl fun J _ => ?_
  rw [Measure.smul_apply, Measure.dirac_apply, Set.indicator_apply]
  split_ifs <;> simp

instance weightMeasure_prob (w : List ℝ) : IsProbabilityMeasure (weightMeasure w) := by
  classical
  by_cases h : (∀ x ∈ w, 0 ≤ x) ∧ 0 < w.sum
  · refine ⟨?_⟩
    rw [weightMeasure_apply h.1 h.2]
    simp only [Set.mem_univ, if_true]
    rw [← Finset.sum_div, ← list_sum_getD, div_self h.2.ne', ENNReal.ofReal_one]
  · unfold weightMeasure
    rw [if_neg h]; infer_instance

/-- a draw of positive weight, whatever `J` is -/
noncomputable def repair (w : List ℝ) (J : ℕ) : ℕ :=
  open Classical in if 0 < w.getD J 0 then J else if h : ∃ J, 0 < w.getD J 0 then h.choose else 0

/-- independent draws with any weights exist, so the hypothesis of `C78_statistics` can be met -/
theorem C78_ideal_sampler_exists : ∃ (Ω : Type) (_ : MeasurableSpace Ω) (μ : Measure Ω) (_ : IsProbabilityMeasure μ) (s : Ω → ℕ → Sampler), IdealSampler μ s := by
  classical
  refine ⟨(List ℝ × ℕ × ℕ) → ℕ, inferInstance, Measure.infinitePi fun x : List ℝ × ℕ × ℕ => weightMeasure x.1, inferInstance,
    fun ω k => ⟨fun w i => repair w (ω (w, k, i)), ?_⟩, ?_, ?_, ?_⟩
  · intro w h0 h1 i
    have hex : ∃ J, 0 < w.getD J 0 := by
      obtain ⟨x, hx, hp⟩ := h1
      obtain ⟨J, hJ, rfl⟩ := List.getElem_of_mem hx
      exact ⟨J, by rwa [List.getD_eq_getElem _ _ hJ]⟩
    unfold repair
    split_ifs with h
    · exact h
    · exact hex.choose_spec
  · intro w k i
    exact (Measurable.of_discrete (f := repair w)).comp (measurable_pi_apply (w, k, i))
  · intro w h0 h1 k i J
    have e : {ω : (List ℝ × ℕ × ℕ) → ℕ | repair w (ω (w, k, i)) = J} = (fun ω => ω (w, k, i)) ⁻¹' {j | repair w j = J} := rfl
    show (Measure.infinitePi fun x : List ℝ × ℕ × ℕ => weightMeasure x.1).real {ω | repair w (ω (w, k, i)) = J} = _
    rw [e, Measure.real, ← Measure.map_apply (measurable_pi_apply (w, k, i)) (MeasurableSet.of_discrete), Measure.infinitePi_map_eval,
      weightMeasure_apply h0 h1, ENNReal.toReal_ofReal (Finset.sum_nonneg fun j _ => by
        split_ifs; exacts [div_nonneg (list_getD_nonneg h0 j) h1.le, le_rfl])]
    have : ∀ j ∈ Finset.range w.length, (if j ∈ {j | repair w j = J} then w.getD j 0 / w.sum else 0) = if j = J then w.getD J 0 / w.sum else 0 := by
      intro j _
      by_cases hj : 0 < w.getD j 0
      · have hr : repair w j = j := if_pos hj
        have hm : j ∈ {j | repair w j = J} ↔ j = J := by show repair w j = J ↔ _; rw [hr]
        by_cases he : j = J
        · rw [if_pos (hm.2 he), if_pos he, he]
        · rw [if_neg (fun h => he (hm.1 h)), if_neg he]
      · have hz : w.getD j 0 = 0 := le_antisymm (not_lt.1 hj) (list_getD_nonneg h0 j)
        rw [hz]
        by_cases he : j = J
        · rw [if_pos he, ← he, hz]; simp
        · rw [if_neg he]; simp
    rw [Finset.sum_congr rfl this, Finset.sum_ite_eq']
    split_ifs with hJ
    · rfl
    · rw [List.getD_eq_default _ _ (not_lt.1 fun h => hJ (Finset.mem_range.2 h)), zero_div]
  · intro W
    have := iIndepFun_infinitePi (P := fun x : List ℝ × ℕ × ℕ => weightMeasure x.1) (X := fun x j => repair x.1 j) (fun _ => measurable_from_top)
    exact this.precomp (g := fun p : ℕ × ℕ => (W p.1, p.1, p.2)) (by
      rintro ⟨a, b⟩ ⟨c, d⟩ h
      simp only [Prod.mk.injEq] at h
      exact Prod.ext h.2.1 h.2.2)

/-- a concrete experiment: two strings measured in the state `|10⟩` -/
theorem C78_example : ∃ E : Experiment, E.Ready ∧ E.nSamples ≠ 0 ∧ 2 ≤ E.operator.length ∧ 1 ≤ E.generator.length := by
  refine ⟨{ nQubits := 2, generator := [gX 1], operator := [(0.5, [gX 0, gY 1]), (-1, [gZ 1])], nSamples := 10 }, ⟨?_, ?_, ?_, rfl⟩, by decide, by decide, by decide⟩
  · intro g hg
    simp only [List.mem_cons, List.not_mem_nil, or_false] at hg
    subst hg; simp [gX]
  · intro g hg
    simp only [List.mem_cons, List.not_mem_nil, or_false] at hg
    subst hg; exact (pauliGate_X 1).exact
  · intro t ht
    simp only [List.mem_cons, List.not_mem_nil, or_false] at ht
    rcases ht with rfl | rfl
    · refine ⟨?_, by simp [gX, gY], ?_⟩
      · intro g hg
        simp only [List.mem_cons, List.not_mem_nil, or_false] at hg
        rcases hg with rfl | rfl
        · exact pauliGate_X 0
        · exact pauliGate_Y 1
      · intro g hg
        simp only [List.mem_cons, List.not_mem_nil, or_false] at hg
        rcases hg with rfl | rfl <;> simp [gX, gY]
    · refine ⟨?_, by simp, ?_⟩ <;> intro g hg <;> simp only [List.mem_cons, List.not_mem_nil, or_false] at hg <;> subst hg
      · exact pauliGate_Z 1
      · simp [gZ]

end QF
