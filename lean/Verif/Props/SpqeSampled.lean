import Verif.Props.SpqeLoop

/-!
C88: SPQE with a finite number of measurements.
-/
namespace QF

open SQOperator (DescSort)
open QubitOperator (SortOracle)
open SQOpPool

namespace Spqe

/-- the attributes that decide when a run with measurements ends -/
def Idle (st : State) : Prop := st.stop = false ∧ st.results = []

theorem sampleStep_idle {st st' : State} {mu : ℕ} (h : sampleStep st mu = .ok st') (hi : Idle st) (hc : st.converged = false) : Idle st' ∧ st'.converged = false := by
  unfold sampleStep at h
  split at h
  · obtain ⟨m, _, h⟩ := bindOk h
    obtain ⟨nb, _, h⟩ := bindOk h
    cases h
    exact ⟨hi, hc⟩
  · cases h; exact ⟨hi, hc⟩

theorem sampleFold_idle (l : List ℕ) : ∀ {st st' : State}, l.foldlM sampleStep st = .ok st' → Idle st → st.converged = false → Idle st' ∧ st'.converged = false := by
  induction l with
  | nil => intro st st' h hi hc; cases h; exact ⟨hi, hc⟩
  | cons m l ih =>
    intro st st' h hi hc
    rw [List.foldlM_cons] at h
    obtain ⟨st1, h1, h2⟩ := bindOk h
    obtain ⟨g1, g2⟩ := sampleStep_idle h1 hi hc
    exact ih h2 g1 g2

theorem updateSampled_idle {o : DescSort} {so : SortOracle} {par : Option Schedule} {X : Ext} {O : Opts} {M : ℤ} {eiH : Circuit} {st st' : State}
    (h : updateSampled o so par X O M eiH st = .ok st') (hi : Idle st) : Idle st' ∧ st'.converged = false := by
  unfold updateSampled at h
  obtain ⟨_, _, h⟩ := bindOk h
  obtain ⟨coeffs, _, h⟩ := bindOk h
  obtain ⟨dets, _, h⟩ := bindOk h
  split at h
  · cases h
  simp only at h
  split at h
  · obtain ⟨_, _, h⟩ := bindOk h
    obtain ⟨_, h2, h⟩ := bindOk h
    rw [hi.2] at h2
    cases h2
  · obtain ⟨st1, h1, h⟩ := bindOk h
    obtain ⟨g1, g2⟩ := sampleFold_idle _ h1 hi rfl
    cases h
    exact ⟨g1, g2⟩

theorem loop_idle {o : DescSort} {so : SortOracle} {par : Option Schedule} {X : Ext} {O : Opts} {M : ℤ} (hO : O.omega = some M) {eiH : Circuit} (fuel : ℕ) :
    ∀ (st st' : State), Idle st → loop o so par X O eiH fuel st ≠ .ok st' := by
  induction fuel with
  | zero => intro st st' _ h; cases h
  | succ fuel ih =>
    intro st st' hi h
    unfold loop at h
    rw [if_neg (by simp [hi.1])] at h
    obtain ⟨st1, h1, h⟩ := bindOk h
    unfold updateAnsatz at h1
    rw [hO] at h1
    simp only at h1
    obtain ⟨g1, g2⟩ := updateSampled_idle h1 hi
    rw [if_neg (by simp [g2])] at h
    obtain ⟨st2, h2, h⟩ := bindOk h
    unfold solve at h2
    obtain ⟨⟨x, e⟩, _, h2⟩ := bindOk h2
    cases h2
    refine absurd h (ih _ _ ?_)
    exact g1

/-- C88 (finding): with a finite `M_omega` a run never returns, for no measurement outcomes and after no number of macro-iterations: nothing sets the flag that ends the loop,
`spqe_maxiter` is not looked at, and when the measurements yield a single determinant the code reads the last element of a list that is always empty. -/
theorem C88_sampled (o : DescSort) (so : SortOracle) (par : Option Schedule) (X : Ext) (O : Opts) (M : ℤ) (hO : O.omega = some M) (occList : Bool) (irr : List ℕ) (irrep : ℕ)
    (A : PqeAlg) (fuel : ℕ) (r : State × ℝ) : run o so par X O occList irr irrep A fuel ≠ .ok r := by
  intro h
  unfold run at h
  split at h
  · cases h
  obtain ⟨⟨eiH, ph⟩, _, h⟩ := bindOk h
  obtain ⟨P, _, h⟩ := bindOk h
  obtain ⟨st, h1, _⟩ := bindOk h
  exact loop_idle hO fuel _ _ ⟨rfl, rfl⟩ h1

/-- C88: and when all measurements yield the same determinant the run ends with `IndexError`, not with the convergence that the code announces. -/
theorem C88_sampled_single (o : DescSort) (so : SortOracle) (par : Option Schedule) (X : Ext) (O : Opts) (M : ℤ) (hM : M ≠ 0) (eiH : Circuit) (st : State) (hr : st.results = [])
    (e : ℝ) (hE : st.alg.energyFeval o so par st.alg.tamps = .ok e) (coeffs : List ℂ) (hC : resCoeffs o so st.alg eiH = .ok coeffs) (dets : List ℕ)
    (hD : X.choice st.iter.toNat coeffs M = .ok dets) (J : ℕ) (hJ : J < coeffs.length) (hne : dets ≠ []) (hd : ∀ I ∈ dets, I = J) :
    updateSampled o so par X O M eiH st = .error .indexError := by
  unfold updateSampled
  rw [hE, except_ok_bind, hC, except_ok_bind, hD, except_ok_bind, if_neg hM]
  simp only
  have hlen : ((((List.range coeffs.length).map fun mu => (dets.count mu, mu)).filter fun p => decide (0 < p.1)).insertionSort
      (fun a b => a.1 < b.1 ∨ (a.1 = b.1 ∧ a.2 ≤ b.2))).length = 1 := by
    rw [List.length_insertionSort, List.filter_map, List.length_map]
    have : (List.range coeffs.length).filter ((fun p : ℕ × ℕ => decide (0 < p.1)) ∘ fun mu => (dets.count mu, mu)) = (List.range coeffs.length).filter fun mu => decide (mu = J) := by
      apply List.filter_congr
      intro mu _
      simp only [Function.comp, decide_eq_decide, List.count_pos_iff]
      constructor
      · intro h; exact hd mu h
      · rintro rfl
        obtain ⟨x, hx⟩ := List.exists_mem_of_ne_nil _ hne
        rw [hd x hx] at hx; exact hx
    rw [this, ← List.countP_eq_length_filter]
    have := List.count_eq_one_of_mem List.nodup_range (List.mem_range.2 hJ)
    unfold List.count at this
    convert this using 2
    funext mu
    exact (beq_eq_decide mu J).symm
  rw [if_pos hlen, hr]
  cases st.energies.getLast? with
  | none => rfl
  | some e => rfl

end Spqe
end QF
