import Verif.Props.AdaptRun
import Mathlib.Analysis.Calculus.LocalExtr.Basic

/-!
C85: ADAPT-VQE with a pool of excitations: when it returns, the variational bound, and why a step lowers the energy.
-/
namespace QF

open SQOperator (DescSort jwTransform)
open QubitOperator (SortOracle)

namespace Adapt

/-- a pool of excitations with real coefficients, as made by `fill_pool` for the types other than "sa_SD" -/
def ExcPool (A : UccAlg) : Prop := ∀ e ∈ A.pool, ∃ c a, e.2 = excTerms c a ∧ Excit A.nqb c a ∧ c.length ≤ 19 ∧ e.1.im = 0

theorem excPool_sound {A : UccAlg} (h : ExcPool A) (hs : A.saSD = false) : A.PoolSound := by
  intro e he s hm
  unfold UccAlg.parts at hm
  rw [hs] at hm
  simp at hm
  subst hm
  obtain ⟨c, a, e1, e2, e3, _⟩ := h e he
  rw [e1]
  refine ⟨exc_distinct e2, fun x hx => ?_⟩
  have := e2.rank
  rcases exc_mem hx with ⟨_, e⟩ | ⟨_, e⟩ <;> rw [e] <;> simp only <;> omega

theorem grown_selects {A B : UccAlg} (h : ExcPool A) (hG : Grown A B) : ∃ xs, B.Selects xs := by
  have hpool : B.pool = A.pool := by rw [hG.same]
  have hnqb : B.nqb = A.nqb := by rw [hG.same]
  unfold UccAlg.Selects
  rw [hpool, hnqb]
  have := hG.mem
  revert this
  generalize B.tops = l
  intro hm
  induction l with
  | nil => exact ⟨[], .nil⟩
  | cons m l ih =>
    obtain ⟨xs, hxs⟩ := ih fun m h => hm m (by simp [h])
    have hlt := hm m (by simp)
    obtain ⟨c, a, e1, e2, e3, _⟩ := h _ (List.getElem_mem hlt)
    exact ⟨(c, a) :: xs, .cons ⟨A.pool[m].1, by rw [List.getElem?_eq_getElem hlt, ← e1], e2, e3⟩ hxs⟩

/-- the ansatz circuit of every intermediate object exists and is unitary -/
theorem grown_build (o : DescSort) (so : SortOracle) {A B : UccAlg} (h : ExcPool A) (hs : A.saSD = false) (hc : A.compact = false) (hN : 1 ≤ A.trotterNumber)
    (hG : Grown A B) (ts : List ℝ) : ∃ C : Circuit, B.buildUvqc o so (some ts) = .ok (A.uprep ++ C) ∧ (∀ g ∈ C, ApiGate g ∧ ExactGate g) ∧ C.Fits A.nqb ∧
      (ts = [] → C.op = 1) := by
  obtain ⟨xs, hxs⟩ := grown_selects h hG
  have hsB : B.saSD = false := by rw [hG.same]; exact hs
  have hcB : B.compact = false := by rw [hG.same]; exact hc
  have hNB : 1 ≤ B.trotterNumber := by rw [hG.same]; exact hN
  have hnqb : B.nqb = A.nqb := by rw [hG.same]
  have hup : B.uprep = A.uprep := by rw [hG.same]
  obtain ⟨C, Ws, h1, h2, h3, h4, h5⟩ := C70_ansatz o so B xs hxs hsB hcB hNB ts
  refine ⟨C, ?_, h4, by rw [← hnqb]; exact h5, ?_⟩
  · unfold UccAlg.buildUvqc
    rw [h1, except_ok_bind]
    simp only [addCircuit_eq, List.nil_append, pure, Except.pure, hup]
  · rintro rfl
    rw [List.zip_nil_left] at h2
    cases h2
    rw [h3]
    show (1 : Op) ^ _ = 1
    rw [one_pow]

theorem fits_append {n : ℕ} {C D : Circuit} (h1 : C.Fits n) (h2 : D.Fits n) : Circuit.Fits n (C ++ D) := by
  intro g hg
  rcases List.mem_append.1 hg with hg | hg
  · exact h1 g hg
  · exact h2 g hg

/-- C85: every energy the algorithm evaluates is the expectation value of the Hamiltonian in a state with the norm of the reference state; with no amplitudes it is the
energy of the reference state. -/
theorem C85_energy (o : DescSort) (so : SortOracle) (A B : UccAlg) (h : ExcPool A) (hs : A.saSD = false) (hc : A.compact = false) (hN : 1 ≤ A.trotterNumber)
    (hR : A.Ready) (hG : Grown A B) (ts : List ℝ) : ∃ ψ : St, B.energyFeval o so none ts = .ok (energy A.nqb A.ham.op ψ) ∧ OnReg A.nqb ψ ∧
      inner A.nqb ψ ψ = inner A.nqb A.reference A.reference ∧ (ts = [] → ψ = A.reference) := by
  obtain ⟨C, h1, h2, h3, h4⟩ := grown_build o so h hs hc hN hG ts
  have hic : B.initialComputer = A.initialComputer := by rw [hG.same]; rfl
  have hham : B.ham = A.ham := by rw [hG.same]
  have hfit := fits_append hR.prep.1 h3
  obtain ⟨q, e1, w, n, p⟩ := applyCircuit_exact (q := A.initialComputer) (A.uprep ++ C) hR.wf (by rw [hR.size]; exact hfit) (by
    intro g hg
    rcases List.mem_append.1 hg with hg | hg
    · exact hR.prep.2 g hg
    · exact (h2 g hg).2)
  have hn := n.trans hR.size
  obtain ⟨q', e3, _⟩ := C29_direct_op q A.ham w (by rw [hn]; exact hR.ham)
  have hψ : q.psi = C.op A.reference := by rw [p, Circuit.op_append]; rfl
  refine ⟨q.psi, ?_, by rw [← hn]; exact psi_onReg w, ?_, ?_⟩
  · unfold UccAlg.energyFeval UccAlg.measureEnergy
    rw [h1, except_ok_bind, Option.getD_some, hic, e1, except_ok_bind, hham, e3, except_ok_bind]
    simp only [pure, Except.pure, energy, hn]
  · rw [hψ]
    exact inner_circuit h3 (fun g hg => C02_unitary (h2 g hg).1) _ _
  · intro ht
    rw [hψ, h4 ht]; rfl

/-- C85: the variational bound.  With a pool of excitations, a lower bound `λ` of the spectrum is a lower bound of the result: `λ ⟨Φ|Φ⟩ ≤ E ≤ ⟨Φ|H|Φ⟩`, with `Φ` the
reference state. -/
theorem C85_bounds (o : DescSort) (so : SortOracle) (S : Solver) (hS : Contract o so none S) (O : AdaptOpts) (A : UccAlg) (h : ExcPool A) (hs : A.saSD = false)
    (hc : A.compact = false) (hN : 1 ≤ A.trotterNumber) (hR : A.Ready) (st : AdaptState) (E : ℝ) (hrun : run o so none S O A = .ok (st, E))
    (lam : ℝ) (hlam : ∀ ψ, OnReg A.nqb ψ → lam * (inner A.nqb ψ ψ).re ≤ energy A.nqb A.ham.op ψ) :
    lam * (inner A.nqb A.reference A.reference).re ≤ E ∧ E ≤ energy A.nqb A.ham.op A.reference := by
  obtain ⟨e0, h1, h2, h3, h4, h5, h6, h7, _⟩ := C85_run o so none S hS O A (excPool_sound h hs) hc st E hrun
  have hsame : st.ucc = { A with tops := st.ucc.tops, tamps := st.ucc.tamps } := by
    unfold run at hrun
    simp only at hrun
    rw [h1, except_ok_bind] at hrun
    cases h2 : loop o so none S O (O.maxiter.toNat - 1) { ucc := { A with tops := [], tamps := [] }, energies := [], gradNorms := [], converged := false, finalEnergy := none, nParams := [] } with
    | error e => rw [h2] at hrun; cases hrun
    | ok st1 =>
      rw [h2, except_ok_bind] at hrun
      obtain ⟨es, a1, a2, a3, _⟩ := loop_outcome o so none S hS O A (excPool_sound h hs) hc _ _ _ (by exact ⟨rfl, rfl, by simp⟩) e0 (by exact h1) h2
      cases h8 : st1.finalEnergy with
      | none => rw [h8] at hrun; cases hrun
      | some e => rw [h8] at hrun; cases hrun; exact a3.same
  obtain ⟨ψ, g1, g2, g3, _⟩ := C85_energy o so A st.ucc h hs hc hN hR ⟨hsame, h6, h7⟩ st.ucc.tamps
  obtain ⟨φ, k1, _, _, k4⟩ := C85_energy o so A { A with tops := [], tamps := [] } h hs hc hN hR ⟨rfl, rfl, by simp⟩ []
  rw [h5] at g1; cases g1
  rw [h1] at k1; cases k1
  rw [k4 rfl] at h4
  exact ⟨by rw [← g3]; exact hlam ψ g2, h4⟩

/-- the gradients can be measured in every intermediate object -/
theorem grown_grads (o : DescSort) (so : SortOracle) {A B : UccAlg} (h : ExcPool A) (hs : A.saSD = false) (hc : A.compact = false) (hN : 1 ≤ A.trotterNumber)
    (hR : A.Ready) (hG : Grown A B) : ∃ gs, B.measureGradient3 o so = .ok gs := by
  obtain ⟨C, h1, h2, h3, _⟩ := grown_build o so h hs hc hN hG B.tamps
  have hfit := fits_append hR.prep.1 h3
  have hnqb : B.nqb = A.nqb := by rw [hG.same]
  have hpool : B.pool = A.pool := by rw [hG.same]
  have hRB : B.Ready := by rw [hG.same]; exact ⟨hR.wf, hR.size, hR.prep, hR.ham⟩
  obtain ⟨gs, e, _⟩ := C72_value o so B hRB (A.uprep ++ C) h1 (by rw [hnqb]; exact hfit) (by
    intro g hg
    rcases List.mem_append.1 hg with hg | hg
    · exact hR.prep.2 g hg
    · exact (h2 g hg).2) (by
    intro e he
    rw [hpool] at he
    obtain ⟨c, a, e1, e2, e3, _⟩ := h e he
    obtain ⟨k, hK, ha⟩ := kappa_skew B.qubitExc c a
    rw [hnqb]
    obtain ⟨Q, f1, f2⟩ := gradOp_exists o e2 e3 B.qubitExc (V := skewExp _ k) (fun s => isExp_skew hK ha s)
    exact ⟨Q, _, by rw [e1]; exact f1, f2.exact⟩)
  exact ⟨gs, e⟩

theorem step_total (o : DescSort) (so : SortOracle) (S : Solver) (hS : Contract o so none S)
    (hT : ∀ B e, B.energyFeval o so none B.tamps = .ok e → ∃ r, S B = .ok r) (O : AdaptOpts) (ho : O.cumulative = false) (ho' : O.addEquiv = false) (hθ : O.thresh ≠ 0)
    (A : UccAlg) (h : ExcPool A) (hs : A.saSD = false) (hc : A.compact = false) (hN : 1 ≤ A.trotterNumber) (hR : A.Ready) (st : AdaptState)
    (hG : Grown A st.ucc) (hfirst : st.energies ≠ [] ∨ ∀ gs, st.ucc.measureGradient3 o so = .ok gs → |O.thresh| ≤ gradNorm gs) :
    ∃ st1, updateAnsatz o so O st = .ok st1 ∧ ((st1.converged = true ∧ st1.finalEnergy ≠ none) ∨
      (st1.converged = false ∧ ∃ st2, solve o so none S st1 = .ok st2 ∧ Grown A st2.ucc ∧ st2.energies ≠ [])) := by
  obtain ⟨gs, hg⟩ := grown_grads o so h hs hc hN hR hG
  by_cases hn : gradNorm gs < |O.thresh|
  · rw [C85_converged o so O st gs hg hn]
    rcases hfirst with hf | hf
    · cases he : st.energies.getLast? with
      | none => exact absurd (List.getLast?_eq_none_iff.1 he) hf
      | some e => exact ⟨_, rfl, .inl ⟨rfl, by simp⟩⟩
    · exact absurd hn (not_lt.2 (hf gs hg))
  · have h0 : ∃ g ∈ gs, g ≠ 0 := by
      by_contra hz
      have : gradNorm gs = 0 := (gradNorm_zero_iff gs).2 fun g hgm => by
        by_contra h1; exact hz ⟨g, hgm, h1⟩
      rw [this] at hn
      exact hn (abs_pos.2 hθ)
    obtain ⟨m, g, hm, hu⟩ := C85_select o so O ho ho' st gs hg (not_lt.1 hn) h0
    have hlt : m < A.pool.length := by
      have := grad3_length hg
      have hp : st.ucc.pool = A.pool := by rw [hG.same]
      rw [← hp, ← this]; exact (List.getElem?_eq_some_iff.1 hm.1).1
    have hG' : ∀ ts : List ℝ, ts.length = st.ucc.tamps.length + 1 → Grown A { st.ucc with tops := st.ucc.tops ++ [m], tamps := ts } := by
      intro ts hts
      refine ⟨by conv_lhs => rw [hG.same], by simp [hG.len, hts], ?_⟩
      intro i hi
      rcases List.mem_append.1 hi with hi | hi
      · exact hG.mem i hi
      · simp at hi; subst hi; exact hlt
    obtain ⟨ψ, e1, _⟩ := C85_energy o so A _ h hs hc hN hR (hG' (st.ucc.tamps ++ [0]) (by simp)) (st.ucc.tamps ++ [0])
    obtain ⟨⟨x, e⟩, hx⟩ := hT _ _ e1
    have hl := (hS _ _ _ hx).1
    refine ⟨_, hu, .inr ⟨rfl, ?_⟩⟩
    unfold solve
    simp only
    rw [e1, except_ok_bind, hx, except_ok_bind]
    exact ⟨_, rfl, hG' x (by rw [hl]; simp), by simp⟩

theorem loop_total (o : DescSort) (so : SortOracle) (S : Solver) (hS : Contract o so none S)
    (hT : ∀ B e, B.energyFeval o so none B.tamps = .ok e → ∃ r, S B = .ok r) (O : AdaptOpts) (ho : O.cumulative = false) (ho' : O.addEquiv = false) (hθ : O.thresh ≠ 0)
    (A : UccAlg) (h : ExcPool A) (hs : A.saSD = false) (hc : A.compact = false) (hN : 1 ≤ A.trotterNumber) (hR : A.Ready) (k : ℕ) (st : AdaptState)
    (hG : Grown A st.ucc) (hfirst : st.energies ≠ [] ∨ ∀ gs, st.ucc.measureGradient3 o so = .ok gs → |O.thresh| ≤ gradNorm gs) :
    ∃ st', loop o so none S O k st = .ok st' ∧ st'.finalEnergy ≠ none := by
  induction k generalizing st with
  | zero =>
    obtain ⟨st1, h1, ⟨h2, h3⟩ | ⟨h2, st2, h3, h4, h5⟩⟩ := step_total o so S hS hT O ho ho' hθ A h hs hc hN hR st hG hfirst
    · refine ⟨st1, ?_, h3⟩
      unfold loop
      rw [h1, except_ok_bind, if_pos h2]; rfl
    · cases he : st2.energies.getLast? with
      | none => exact absurd (List.getLast?_eq_none_iff.1 he) h5
      | some e =>
        refine ⟨{ st2 with finalEnergy := some e }, ?_, by simp⟩
        unfold loop
        rw [h1, except_ok_bind, if_neg (by simp [h2]), h3, except_ok_bind, he]; rfl
  | succ k ih =>
    obtain ⟨st1, h1, ⟨h2, h3⟩ | ⟨h2, st2, h3, h4, h5⟩⟩ := step_total o so S hS hT O ho ho' hθ A h hs hc hN hR st hG hfirst
    · refine ⟨st1, ?_, h3⟩
      unfold loop
      rw [h1, except_ok_bind, if_pos h2]; rfl
    · obtain ⟨st', h6, h7⟩ := ih st2 h4 (.inl h5)
      refine ⟨st', ?_, h7⟩
      unfold loop
      rw [h1, except_ok_bind, if_neg (by simp [h2]), h3, except_ok_bind]
      exact h6

/-- C85: when a run with the default options returns.  With a pool of excitations, a nonzero threshold and an optimizer that always returns, `run` returns exactly if the gradients of the
reference state have a norm of at least the threshold; if the reference already is converged it raises `IndexError` instead of returning the reference energy. -/
theorem C85_returns (o : DescSort) (so : SortOracle) (S : Solver) (hS : Contract o so none S)
    (hT : ∀ B e, B.energyFeval o so none B.tamps = .ok e → ∃ r, S B = .ok r) (O : AdaptOpts) (ho : O.cumulative = false) (ho' : O.addEquiv = false) (hθ : O.thresh ≠ 0)
    (A : UccAlg) (h : ExcPool A) (hs : A.saSD = false) (hc : A.compact = false) (hN : 1 ≤ A.trotterNumber) (hR : A.Ready) :
    ∃ gs, ({ A with tops := [], tamps := [] } : UccAlg).measureGradient3 o so = .ok gs ∧
      (|O.thresh| ≤ gradNorm gs → ∃ r, run o so none S O A = .ok r) ∧ (gradNorm gs < |O.thresh| → run o so none S O A = .error .indexError) := by
  have hG : Grown A { A with tops := [], tamps := [] } := ⟨rfl, rfl, by simp⟩
  obtain ⟨gs, hg⟩ := grown_grads o so h hs hc hN hR hG
  obtain ⟨ψ, e1, _⟩ := C85_energy o so A _ h hs hc hN hR hG []
  refine ⟨gs, hg, fun hn => ?_, fun hn => ?_⟩
  · obtain ⟨st', h1, h2⟩ := loop_total o so S hS hT O ho ho' hθ A h hs hc hN hR (O.maxiter.toNat - 1)
      { ucc := { A with tops := [], tamps := [] }, energies := [], gradNorms := [], converged := false, finalEnergy := none, nParams := [] } hG
      (.inr fun gs' hg' => by
        have : gs' = gs := by
          have := hg.symm.trans hg'; cases this; rfl
        rw [this]; exact hn)
    cases he : st'.finalEnergy with
    | none => exact absurd he h2
    | some e =>
      refine ⟨(st', e), ?_⟩
      unfold run
      simp only
      rw [e1, except_ok_bind, h1, except_ok_bind, he]; rfl
  · have h1 := C85_converged o so O { ucc := { A with tops := [], tamps := [] }, energies := [], gradNorms := [], converged := false, finalEnergy := none, nParams := [] } gs hg hn
    unfold run
    simp only
    rw [e1, except_ok_bind]
    unfold loop
    rw [h1]; rfl

theorem sumSq_le (gs : List ℝ) (b : ℝ) (h : ∀ x ∈ gs, x ^ 2 ≤ b) : (gs.map fun x => x ^ 2).sum ≤ gs.length * b := by
  induction gs with
  | nil => simp
  | cons x gs ih =>
    rw [List.map_cons, List.sum_cons, List.length_cons]
    have := h x (by simp)
    have := ih fun x hx => h x (by simp [hx])
    push_cast
    linarith

/-- C85: the gradient chosen is a fair share of the whole: `‖g‖² ≤ M g_m²`, with `M` the size of the pool. -/
theorem C85_share (gs : List ℝ) (m : ℕ) (g : ℝ) (h : FirstMax gs m g) : gradNorm gs ^ 2 ≤ gs.length * g ^ 2 := by
  unfold gradNorm
  rw [Real.sq_sqrt (sumSq_nonneg gs)]
  refine sumSq_le gs _ fun x hx => ?_
  obtain ⟨k, hk⟩ := List.getElem?_of_mem hx
  exact sq_le_sq.2 (h.2.2.1 k x hk)

/-- C85: the operator chosen can lower the energy.  If the iteration is not converged, there is an amplitude `s` for the chosen excitation with
`E(exp(s z κ_m) ψ) < E(ψ)`. -/
theorem C85_descent (o : DescSort) (so : SortOracle) (O : AdaptOpts) (ho : O.cumulative = false) (ho' : O.addEquiv = false) (hθ : O.thresh ≠ 0)
    (A : UccAlg) (h : ExcPool A) (hs : A.saSD = false) (hc : A.compact = false) (hN : 1 ≤ A.trotterNumber) (hR : A.Ready) (hH : HermitianOn A.nqb A.ham.op)
    (st st1 : AdaptState) (hG : Grown A st.ucc) (hu : updateAnsatz o so O st = .ok st1) (hconv : st1.converged = false) :
    ∃ (m : ℕ) (e : ℂ × SQOperator) (c a : List ℕ) (U : Circuit), st1.ucc.tops = st.ucc.tops ++ [m] ∧ st1.ucc.tamps = st.ucc.tamps ++ [0] ∧
      A.pool[m]? = some e ∧ e.2 = excTerms c a ∧ st.ucc.buildUvqc o so = .ok U ∧
      ∀ V, IsFlow (kappa A.qubitExc c a) V → ∃ s : ℝ, energy A.nqb A.ham.op (V (s * e.1.re) (U.op A.initialComputer.psi)) < energy A.nqb A.ham.op (U.op A.initialComputer.psi) := by
  obtain ⟨C, h1, h2, h3, _⟩ := grown_build o so h hs hc hN hG st.ucc.tamps
  have hfit := fits_append hR.prep.1 h3
  have hnqb : st.ucc.nqb = A.nqb := by rw [hG.same]
  have hpool : st.ucc.pool = A.pool := by rw [hG.same]
  have hham : st.ucc.ham = A.ham := by rw [hG.same]
  have hq : st.ucc.qubitExc = A.qubitExc := by rw [hG.same]
  have hic : st.ucc.initialComputer = A.initialComputer := by rw [hG.same]; rfl
  have hRB : st.ucc.Ready := by rw [hG.same]; exact ⟨hR.wf, hR.size, hR.prep, hR.ham⟩
  obtain ⟨gs, hg, hF⟩ := C72_excitations o so st.ucc hRB (A.uprep ++ C) h1 (by rw [hnqb]; exact hfit) (by
    intro g hg
    rcases List.mem_append.1 hg with hg | hg
    · exact hR.prep.2 g hg
    · exact (h2 g hg).2) (by rw [hnqb, hham]; exact hH) (by rw [hpool, hnqb]; exact h)
  have hn : |O.thresh| ≤ gradNorm gs := by
    by_contra hn
    rw [C85_converged o so O st gs hg (not_le.1 hn)] at hu
    cases he : st.energies.getLast? with
    | none => rw [he] at hu; cases hu
    | some e => rw [he] at hu; cases hu; simp at hconv
  have h0 : ∃ g ∈ gs, g ≠ 0 := by
    by_contra hz
    have : gradNorm gs = 0 := (gradNorm_zero_iff gs).2 fun g hgm => by
      by_contra h1; exact hz ⟨g, hgm, h1⟩
    rw [this] at hn
    exact absurd hn (not_le.2 (abs_pos.2 hθ))
  obtain ⟨m, g, hm, hu'⟩ := C85_select o so O ho ho' st gs hg hn h0
  rw [hu] at hu'; cases hu'
  have hlt : m < gs.length := (List.getElem?_eq_some_iff.1 hm.1).1
  have hlt' : m < st.ucc.pool.length := by rw [← grad3_length hg]; exact hlt
  have hFm := (List.forall₂_iff_get.1 hF).2 m hlt' hlt
  simp only [List.get_eq_getElem] at hFm
  have hgm : gs[m] = g := (List.getElem?_eq_some_iff.1 hm.1).2
  rw [hgm] at hFm
  have hmem : st.ucc.pool[m] ∈ A.pool := by rw [← hpool]; exact List.getElem_mem hlt'
  obtain ⟨c, a, e1, e2, e3, e4⟩ := h _ hmem
  refine ⟨m, st.ucc.pool[m], c, a, A.uprep ++ C, rfl, rfl, by rw [← hpool]; exact List.getElem?_eq_getElem hlt', e1, h1, ?_⟩
  intro V hV
  obtain ⟨_, hd⟩ := hFm c a e1 (by rw [hnqb]; exact e2)
  have hd := hd V (by rw [hq]; exact hV)
  rw [hnqb, hham, hic] at hd
  have hv0 : V 0 = 1 := (hV 0).unique (by simpa using isExp_zero)
  set f := fun s : ℝ => energy A.nqb A.ham.op (V (s * (st.ucc.pool[m]).1.re) (Circuit.op (A.uprep ++ C) A.initialComputer.psi)) with hf
  have hf0 : f 0 = energy A.nqb A.ham.op (Circuit.op (A.uprep ++ C) A.initialComputer.psi) := by
    simp only [hf, zero_mul, hv0]; rfl
  rw [← hf0]
  by_contra hno
  have hmin : IsLocalMin f 0 := Filter.Eventually.of_forall fun s => by
    by_contra hlt; exact hno ⟨s, not_le.1 hlt⟩
  exact hm.2.1 (hmin.hasDerivAt_eq_zero hd)

end Adapt
end QF
