import Verif.Props.SpqeSelect

/-!
C88: one update of the ansatz of SPQE with exact residuals (`M_omega = "inf"`).
-/
namespace QF

open SQOperator (DescSort)
open QubitOperator (SortOracle)
open SQOpPool

namespace Spqe

variable {A : PqeAlg} {d : List (ℕ × ℕ)} {k R : ℕ} {dets : List ℕ}

/-- the squared estimate of the residual of the determinant `I`: `|⟨I|U† K U|Φ⟩|² / dt²` with `K` the propagator -/
noncomputable def estimate (n : ℕ) (K U : Op) (Φ : St) (dt : ℝ) (I : ℕ) : ℝ := ‖detResidual n K U Φ I‖ ^ 2 / (dt * dt)

/-- the operators `new` are those of largest weight among the candidates, in increasing order, and those left out are as many as possible such that their weights add
up to at most `θ²` -/
structure Chosen (w : ℕ → ℝ) (θ : ℝ) (cand new : List ℕ) : Prop where
  ascending : new.Pairwise fun a b => w a ≤ w b
  split : ∃ rest : List ℕ, (rest ++ new).Perm cand ∧ (∀ a ∈ rest, ∀ b ∈ new, w a ≤ w b) ∧ (rest.map w).sum ≤ θ * θ ∧ ∀ b ∈ new, θ * θ < (rest.map w).sum + w b

/-- what `update_ansatz` does to a state with squared residuals `w` -/
structure Updated (O : Opts) (w : ℕ → ℝ) (nel k R : ℕ) (dets : List ℕ) (st st' : State) : Prop where
  norm : st'.resNorm = ((cands dets st.alg.tops).map w).sum
  keep : st'.toPool = st.toPool ∧ st'.energies = st.energies ∧ st'.results = st.results ∧ st'.iter = st.iter
  outcome :
    (st'.converged = true ∧ st'.stop = true ∧ st'.alg = st.alg ∧ st'.nbody = st.nbody ∧ st'.nParams = st.nParams ∧
      (st'.resNorm < O.thresh * O.thresh ∨ (O.thresh = 0 ∧ cands dets st.alg.tops = [] ∧ st.iter ≤ O.maxiter))) ∨
    (st'.converged = false ∧ O.thresh * O.thresh ≤ st'.resNorm ∧ (st'.stop = true ↔ O.maxiter < st.iter) ∧ (st.iter ≤ O.maxiter → cands dets st.alg.tops ≠ []) ∧
      ∃ new : List ℕ, st'.alg = { st.alg with tops := new ++ st.alg.tops, tamps := (new.map fun _ => 0) ++ st.alg.tamps } ∧
        (O.cumulative = true → Chosen w O.thresh (cands dets st.alg.tops) new) ∧
        (O.cumulative = false → (cands dets st.alg.tops = [] ∧ new = []) ∨ ∃ m ∈ cands dets st.alg.tops, new = [m] ∧ ∀ a ∈ cands dets st.alg.tops, w a ≤ w m) ∧
        st'.nbody = nbodyOf nel k R dets (new ++ st.alg.tops) ∧ st'.nParams = st.nParams ++ [(new ++ st.alg.tops).length])

/-- the coefficients that `update_ansatz` looks at -/
theorem resCoeffs_ok (o : DescSort) (so : SortOracle) (h : Sound A d k R dets) (hc : A.compact = false) (hN : 1 ≤ A.trotterNumber) (hR : A.Ready) (h0 : A.computer = none)
    (eiH : Circuit) (hF : eiH.Fits A.nqb) (hX : ∀ g ∈ eiH, ExactGate g) :
    ∃ (C : Circuit) (coeffs : List ℂ), A.ansatzCircuit o so (some A.tamps) = .ok C ∧ resCoeffs o so A eiH = .ok coeffs ∧
      ∀ J, J < 2 ^ (2 * k) → coeffs[J]? = some (detResidual A.nqb eiH.op C.op A.reference J) := by
  obtain ⟨C, h1, h3, h4, h5⟩ := h.circuit o so hc hN A.tamps
  have e0 : A.initialComputer = Computer.init A.nqb := by unfold UccAlg.initialComputer; rw [h0]; rfl
  obtain ⟨q1, e1, w1, n1, p1⟩ := applyCircuit_exact (q := Computer.init A.nqb) A.uprep (Computer.WF.init _) hR.prep.1 hR.prep.2
  obtain ⟨q2, e2, w2, n2, p2⟩ := applyCircuit_exact (q := q1) C w1 (by rw [n1]; exact h4) (fun g hg => (h3 g hg).2)
  have hn2 : q2.nqubit = A.nqb := n2.trans n1
  obtain ⟨q3, e3, w3, n3, p3⟩ := applyCircuit_exact (q := q2) eiH w2 (by rw [hn2]; exact hF) hX
  have hn3 : q3.nqubit = A.nqb := n3.trans hn2
  obtain ⟨q4, e4, w4, n4, p4⟩ := applyCircuit_exact (q := q3) C.adjoint w3 (by rw [hn3]; exact adj_fits h4) (adjoint_exact h3)
  have hn4 : q4.nqubit = A.nqb := n4.trans hn3
  have hpsi : q4.psi = C.adjoint.op (eiH.op (C.op A.reference)) := by rw [p4, p3, p2, p1, UccAlg.reference, e0]
  have h1' : A.ansatzCircuit o so none = .ok C := h1
  refine ⟨C, q4.coeff, h1, ?_, fun J hJ => ?_⟩
  · unfold resCoeffs
    rw [h1', except_ok_bind, e1, except_ok_bind, e2, except_ok_bind, e3, except_ok_bind, e4, except_ok_bind]
    rfl
  · exact coeff_inner h3 h4 w4 hn4 hpsi (by rw [h.size]; exact hJ)

theorem filter_length_range (l : List ℕ) : (l.filter (· ≠ 0)).length = ((List.range l.length).filter fun i => decide (l.getD i 0 ≠ 0)).length := by
  conv_lhs => rw [← map_getD_range l, List.filter_map, List.length_map]
  rfl

theorem Sound.holes_le (h : Sound A d k R dets) (I : ℕ) : (holes (2 * k) R I).length ≤ (A.ref.filter (· ≠ 0)).length := by
  rw [filter_length_range, h.len]
  unfold holes
  rw [List.filter_reverse, List.length_reverse]
  apply List.Sublist.length_le
  apply List.monotone_filter_right
  intro i hi
  have := h.isRef i
  simp only [Bool.and_eq_true] at hi
  rw [hi.1] at this
  have := of_decide_eq_true this.symm
  rw [decide_eq_true_iff, this]
  exact one_ne_zero

theorem cands_nil (hn : A.tops.Nodup) (hm : ∀ m ∈ A.tops, m < dets.length) : A.tops.length = dets.length ↔ cands dets A.tops = [] := by
  have hp : (A.tops ++ cands dets A.tops).Perm (List.range dets.length) := by
    apply List.perm_of_nodup_nodup_toFinset_eq
    · rw [List.nodup_append]
      refine ⟨hn, List.nodup_range.filter _, ?_⟩
      intro a ha b hb e
      subst e
      simpa using (List.mem_filter.1 hb).2 |> of_decide_eq_true |> fun h => h ha
    · exact List.nodup_range
    · ext m
      simp only [List.mem_toFinset, List.mem_append, List.mem_range, cands, List.mem_filter, decide_eq_true_eq]
      constructor
      · rintro (h | h)
        · exact hm m h
        · exact h.1
      · intro h
        by_cases hx : m ∈ A.tops
        · exact .inl hx
        · exact .inr ⟨h, hx⟩
  have := hp.length_eq
  rw [List.length_append, List.length_range] at this
  rw [← List.length_eq_zero_iff]
  omega

theorem selSingle_ok (h : Sound A d k R dets) {nel : ℕ} {st : State} (hA : st.alg = A) (hb : st.nbody = nbodyOf nel k R dets A.tops) (x : ℕ → ℝ) (ord : List ℕ)
    (hm : ∀ m ∈ ord, m < dets.length ∧ m ∉ A.tops ∧ (holes (2 * k) R (dets.getD m 0)).length ≤ nel) :
    selSingle d st (ord.map fun m => (x m, dets.getD m 0)) = .ok (ord.head?.elim st fun m =>
      { st with alg := insertOp st.alg m, nbody := nbodyOf nel k R dets (m :: A.tops) }) := by
  cases ord with
  | nil => rfl
  | cons m ord =>
    obtain ⟨m1, m2, m3⟩ := hm m (by simp)
    rw [List.map_cons]
    unfold selSingle
    simp only
    rw [List.getD_eq_getElem _ _ m1] at m3 ⊢
    rw [h.poolIdx m1, except_ok_bind, hA, if_pos m2, hb, countOp_ok h m1 m3, except_ok_bind]
    rfl

/-- C88: one update of the ansatz.  The estimate of the residual norm is the sum over all pool operators that are not yet in the ansatz.  Either the run is converged and
nothing changes, or the new operators are put in front of the others with amplitudes zero. -/
theorem C88_update (o : DescSort) (so : SortOracle) (par : Option Schedule) (O : Opts) (eiH : Circuit) (st : State) (k R : ℕ) (dets : List ℕ)
    (h : Sound st.alg st.toPool k R dets) (hc : st.alg.compact = false) (hN : 1 ≤ st.alg.trotterNumber) (hR : st.alg.Ready) (h0 : st.alg.computer = none)
    (hn : st.alg.tops.Nodup) (hb : st.nbody = nbodyOf (st.alg.ref.filter (· ≠ 0)).length k R dets st.alg.tops) (hs : st.stop = false) (hv : st.converged = false)
    (hF : eiH.Fits st.alg.nqb) (hX : ∀ g ∈ eiH, ExactGate g) (e : ℝ) (hE : st.alg.energyFeval o so par st.alg.tamps = .ok e) :
    ∃ (C : Circuit) (st' : State), st.alg.ansatzCircuit o so (some st.alg.tamps) = .ok C ∧ updateInf o so par O eiH st = .ok st' ∧
      Updated O (fun m => estimate st.alg.nqb eiH.op C.op st.alg.reference O.dt (dets.getD m 0)) (st.alg.ref.filter (· ≠ 0)).length k R dets st st' := by
  classical
  obtain ⟨C, coeffs, c1, c2, c3⟩ := resCoeffs_ok o so h hc hN hR h0 eiH hF hX
  obtain ⟨ord, r1, r2, r3⟩ := resSq_ok h coeffs _ c3
  refine ⟨C, ?_⟩
  set w : ℕ → ℝ := fun m => estimate st.alg.nqb eiH.op C.op st.alg.reference O.dt (dets.getD m 0) with hw
  set x : ℕ → ℝ := fun m => ‖detResidual st.alg.nqb eiH.op C.op st.alg.reference (dets.getD m 0)‖ ^ 2 with hx
  have hwx : ∀ m, w m = x m / (O.dt * O.dt) := fun m => rfl
  have hw0 : ∀ m, 0 ≤ w m := fun m => div_nonneg (sq_nonneg _) (mul_self_nonneg _)
  have hmono : ∀ a b, x a ≤ x b → w a ≤ w b := fun a b hab => div_le_div_of_nonneg_right hab (mul_self_nonneg _)
  have hsum : ∀ l : List ℕ, (l.map x).sum / (O.dt * O.dt) = (l.map w).sum := by
    intro l
    induction l with
    | nil => simp
    | cons a l ih => rw [List.map_cons, List.map_cons, List.sum_cons, List.sum_cons, add_div, ih, hwx]
  have hnorm : (((ord.map fun m => (x m, dets.getD m 0)).map Prod.fst).sum) / (O.dt * O.dt) = ((cands dets st.alg.tops).map w).sum := by
    rw [List.map_map, show (Prod.fst ∘ fun m => (x m, dets.getD m 0)) = x from rfl, hsum]
    exact (r1.map w).sum_eq
  have hS0 : 0 ≤ ((cands dets st.alg.tops).map w).sum := List.sum_nonneg (by intro y hy; obtain ⟨m, _, rfl⟩ := List.mem_map.1 hy; exact hw0 m)
  have hmem : ∀ m ∈ ord, m < dets.length ∧ m ∉ st.alg.tops ∧ (holes (2 * k) R (dets.getD m 0)).length ≤ (st.alg.ref.filter (· ≠ 0)).length := by
    intro m hm
    have := List.mem_filter.1 (r1.mem_iff.1 hm)
    exact ⟨List.mem_range.1 this.1, of_decide_eq_true this.2, h.holes_le _⟩
  have hpl : st.alg.pool.length = dets.length := by rw [h.pool, List.length_map]
  unfold updateInf
  rw [hE, except_ok_bind, c2, except_ok_bind, r2, except_ok_bind]
  simp only
  rw [hnorm]
  set S := ((cands dets st.alg.tops).map w).sum with hSdef
  have hcs : convStatus O { st with resNorm := S } = (if S < O.thresh * O.thresh then { st with resNorm := S, converged := true, stop := true }
      else if O.maxiter < st.iter then { st with resNorm := S, converged := false, stop := true }
      else if cands dets st.alg.tops = [] then { st with resNorm := S, converged := true, stop := true }
      else { st with resNorm := S }) := by
    unfold convStatus
    simp only [abs_of_nonneg hS0, abs_of_nonneg (mul_self_nonneg O.thresh), hpl, cands_nil hn h.mem, gt_iff_lt]
  rw [hcs]
  by_cases h1 : S < O.thresh * O.thresh
  · rw [if_pos h1]
    exact ⟨_, c1, rfl, ⟨rfl, ⟨rfl, rfl, rfl, rfl⟩, .inl ⟨rfl, rfl, rfl, rfl, rfl, .inl h1⟩⟩⟩
  rw [if_neg h1]
  by_cases h2 : ¬O.maxiter < st.iter ∧ cands dets st.alg.tops = []
  · rw [if_neg h2.1, if_pos h2.2]
    refine ⟨_, c1, rfl, ⟨rfl, ⟨rfl, rfl, rfl, rfl⟩, .inl ⟨rfl, rfl, rfl, rfl, rfl, .inr ⟨?_, h2.2, not_lt.1 h2.1⟩⟩⟩⟩
    have : S = 0 := by rw [hSdef, h2.2]; rfl
    rw [this] at h1
    exact mul_self_eq_zero.1 (le_antisymm (not_lt.1 h1) (mul_self_nonneg _))
  -- not converged: both remaining branches are handled together
  obtain ⟨stop, hstop, hst⟩ : ∃ stop : Bool, (stop = true ↔ O.maxiter < st.iter) ∧ (if O.maxiter < st.iter then { st with resNorm := S, converged := false, stop := true }
      else if cands dets st.alg.tops = [] then { st with resNorm := S, converged := true, stop := true }
      else { st with resNorm := S } : State) = { st with resNorm := S, converged := false, stop := stop } := by
    by_cases h3 : O.maxiter < st.iter
    · exact ⟨true, by simp [h3], by rw [if_pos h3]⟩
    · refine ⟨false, by simp [h3], ?_⟩
      rw [if_neg h3, if_neg fun h4 => h2 ⟨h3, h4⟩, hs, hv]
  rw [hst]
  simp only [Bool.false_eq_true, if_false]
  have hcand : st.iter ≤ O.maxiter → cands dets st.alg.tops ≠ [] := fun hi h4 => h2 ⟨not_lt.2 hi, h4⟩
  cases hcum : O.cumulative
  · have hrev := selSingle_ok h (st := { st with resNorm := S, converged := false, stop := stop }) rfl hb x ord.reverse (fun m hm => hmem m (List.mem_reverse.1 hm))
    simp only [Bool.false_eq_true, if_false]
    rw [← List.map_reverse, hrev, except_ok_bind]
    cases hr : ord.reverse with
    | nil =>
      have ho : ord = [] := by simpa using hr
      have hcn : cands dets st.alg.tops = [] := by rw [ho] at r1; exact r1.symm.eq_nil
      exact ⟨_, c1, rfl, ⟨rfl, ⟨rfl, rfl, rfl, rfl⟩, .inr ⟨rfl, not_lt.1 h1, hstop, hcand, [], rfl, fun h => by simp [hcum] at h, fun _ => .inl ⟨hcn, rfl⟩, hb, rfl⟩⟩⟩
    | cons m l =>
      have ho : ord = l.reverse ++ [m] := by rw [← List.reverse_reverse ord, hr, List.reverse_cons]
      refine ⟨_, c1, rfl, ⟨rfl, ⟨rfl, rfl, rfl, rfl⟩, .inr ⟨rfl, not_lt.1 h1, hstop, hcand, [m], rfl, fun h => by simp [hcum] at h, fun _ => .inr ⟨m, ?_, rfl, ?_⟩, rfl, rfl⟩⟩⟩
      · exact r1.mem_iff.1 (by rw [ho]; simp)
      · intro a ha
        have ha := r1.mem_iff.2 ha
        rw [ho] at ha r3
        rcases List.mem_append.1 ha with ha | ha
        · exact hmono _ _ ((List.pairwise_append.1 r3).2.2 a ha m (by simp))
        · rw [List.mem_singleton.1 ha]
  · simp only [if_true]
    obtain ⟨pre, post, sum, e1, e2, e3, e4, e5⟩ := sel_fold O h (nel := (st.alg.ref.filter (· ≠ 0)).length) x (fun m => sq_nonneg _) ord hmem { nbody := st.nbody } hb
    rw [e2, except_ok_bind]
    simp only [List.nil_append]
    rw [insert_fold]
    refine ⟨_, c1, rfl, ⟨rfl, ⟨rfl, rfl, rfl, rfl⟩, .inr ⟨rfl, not_lt.1 h1, hstop, hcand, post, rfl, fun _ => ?_, fun h => by simp [hcum] at h, rfl, rfl⟩⟩⟩
    rw [e1] at r1 r3
    have r3' := List.pairwise_append.1 r3
    refine ⟨r3'.2.1.imp fun hab => hmono _ _ hab, pre, r1, fun a ha b hb => hmono _ _ (r3'.2.2 a ha b hb), ?_, ?_⟩
    · by_cases hp : pre = []
      · subst hp; simpa using mul_self_nonneg O.thresh
      · have := e4 hp
        simpa [← hwx] using this
    · intro b hb
      obtain ⟨a, l, rfl⟩ : ∃ a l, post = a :: l := by
        cases post with
        | nil => simp at hb
        | cons a l => exact ⟨a, l, rfl⟩
      have h5 := e5 a rfl
      simp only [← hwx, zero_add] at h5
      have hab : w a ≤ w b := by
        rcases List.mem_cons.1 hb with rfl | hb
        · exact le_rfl
        · exact hmono _ _ ((List.pairwise_cons.1 r3'.2.1).1 b hb)
      change O.thresh * O.thresh < (pre.map w).sum + w a at h5
      linarith

/-- C88: if the estimate is above the threshold, the cumulative selection takes at least one operator; if it equals the threshold it takes none. -/
theorem C88_progress (w : ℕ → ℝ) (hw : ∀ m, 0 ≤ w m) (θ : ℝ) (cand new : List ℕ) (h : Chosen w θ cand new) :
    (θ * θ < (cand.map w).sum → new ≠ []) ∧ ((cand.map w).sum ≤ θ * θ → new = []) := by
  obtain ⟨rest, s1, s2, s3, s4⟩ := h.split
  have hs : (cand.map w).sum = (rest.map w).sum + (new.map w).sum := by rw [← (s1.map w).sum_eq, List.map_append, List.sum_append]
  constructor
  · rintro hlt rfl
    simp at hs; linarith
  · intro hle
    cases new with
    | nil => rfl
    | cons b l =>
      have h1 := s4 b (by simp)
      have h2 : 0 ≤ (l.map w).sum := List.sum_nonneg (by intro y hy; obtain ⟨m, _, rfl⟩ := List.mem_map.1 hy; exact hw m)
      simp only [List.map_cons, List.sum_cons] at hs
      linarith

end Spqe
end QF
