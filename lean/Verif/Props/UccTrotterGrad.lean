import Verif.Props.UccCompact
import Verif.Props.UccGradient3
import Mathlib.Analysis.Real.Pi.Bounds

/-!
C71 with `trotter_number > 1`: `measure_gradient` is not the gradient (finding F38).
-/
namespace QF

open SQOperator (DescSort jwTransform)
open QubitOperator (SortOracle)

/-- the loop of `measure_gradient` only puts entries in front -/
theorem gradLoop_runs (o : DescSort) {A : UccAlg} {xs : List (List ℕ × List ℕ)} (h : A.Selects xs) (hz : A.UnitCoeffs) {Vs : List (ℝ → Op)}
    (hV : Flows A.qubitExc xs Vs) {ts : List ℝ} (hund : A.Undoes o Vs ts) (hl : Vs.length = ts.length) :
    ∀ (mu : ℕ) (hv : mu < Vs.length) (Q : QubitOperator) (psi sig : Computer) (grads : List ℝ), A.gradK o mu = .ok Q →
      psi.WF → psi.nqubit = A.nqb → sig.WF → sig.nqubit = A.nqb →
      ∃ g, A.gradLoop o ts mu Q psi sig grads = .ok (g ++ grads) ∧ g.length = mu := by
  have hlx : A.tops.length = Vs.length := by
    have h1 := List.Forall₂.length_eq h
    have h2 := List.Forall₂.length_eq hV
    omega
  intro mu
  induction mu with
  | zero => intro hv Q psi sig grads _ _ _ _ _; exact ⟨[], rfl, rfl⟩
  | succ mu ih =>
    intro hv Q psi sig grads hQ wp np ws ns
    have hv' : mu + 1 < ts.length := by omega
    obtain ⟨Q', K', hvm, e1, hQ', _⟩ := gradK_ok o h hz hV (mu := mu) (by omega)
    obtain ⟨U, hU, e3, e4, e5⟩ := hund mu hv hv' Q hQ
    obtain ⟨sig', s1, s2, s3, _⟩ := applyCircuit_exact (q := sig) U ws (by rw [ns]; exact e5) e4
    obtain ⟨psi', p1, p2, p3, _⟩ := applyCircuit_exact (q := psi) U wp (by rw [np]; exact e5) e4
    obtain ⟨temp, t1, w1, n1, _⟩ := C24_apply_operator psi' Q' p2 (by rw [p3, np]; exact hQ'.exact)
    have t2 : UccAlg.gradVal sig' temp = .ok (2 * (inner A.nqb sig'.psi temp.psi).re) := by
      unfold UccAlg.gradVal Computer.dot
      rw [innerProd_inner s2 w1 (by rw [n1, p3, s3, np, ns]), except_ok_bind, s3, ns]; rfl
    obtain ⟨g, r1, r2⟩ := ih hvm Q' psi' sig' (2 * (inner A.nqb sig'.psi temp.psi).re :: grads) e1 p2 (p3.trans np) s2 (s3.trans ns)
    refine ⟨g ++ [2 * (inner A.nqb sig'.psi temp.psi).re], ?_, by simp [r2]⟩
    rw [UccAlg.gradLoop, pyIndex_ok (List.getElem?_eq_getElem hv'), except_ok_bind, e1, except_ok_bind, hU, except_ok_bind, s1, except_ok_bind, p1,
      except_ok_bind, t1, except_ok_bind, t2, except_ok_bind, r1]
    simp

/-- C71: for every Trotter number the last entry of `measure_gradient(params)` is `2 Re ⟨ψ|H κ|ψ⟩` with the state `ψ` of the ansatz and the last operator `κ`. -/
theorem C71_last_entry (o : DescSort) (so : SortOracle) (A : UccAlg) (xs : List (List ℕ × List ℕ)) (h : A.Selects xs) (hs : A.saSD = false)
    (hc : A.compact = false) (hN : 1 ≤ A.trotterNumber) (hz : A.UnitCoeffs) (ts : List ℝ) (hr : ∀ p ∈ List.zip ts xs, AmpResolved p.2 p.1)
    (Vs : List (ℝ → Op)) (hV : Flows A.qubitExc xs Vs) (hR : A.Ready)
    (h1 : ts.length = A.tops.length) (h2 : A.tamps.length = A.tops.length) (M : ℕ) (h3 : A.tops.length = M + 1) (x : List ℕ × List ℕ) (hx : xs[M]? = some x) :
    ∃ g v ψ, A.measureGradient o so (some ts) = .ok (g ++ [v]) ∧ g.length = M ∧
      ψ = (uccOp Vs (ts.map fun t => t / A.trotterNumber) ^ A.trotterNumber.toNat) A.reference ∧
      v = 2 * (inner A.nqb (A.ham.op ψ) (kappa A.qubitExc x.1 x.2 ψ)).re := by
  obtain ⟨C, c1, c2, c3, c4⟩ := C70_exact o so A xs h hs hc hN ts hr Vs hV
  obtain ⟨U, psi, e1, e2, w, n, p⟩ := build_of_ansatz o so A ts hR c1 c2 (fun g hg => (c3 g hg).2) c4
  obtain ⟨sig, e3, w3, n3, p3⟩ := C24_apply_operator psi A.ham w (by rw [n]; exact hR.ham)
  have hlx : A.tops.length = Vs.length := by
    have h1 := List.Forall₂.length_eq h
    have h2 := List.Forall₂.length_eq hV
    omega
  obtain ⟨i, y, z, k1, k2, k3, k4, k5⟩ := selects_get h (mu := M) (by omega)
  rw [hx] at k2; cases k2
  obtain ⟨hv, hF⟩ := flows_get hV hx
  obtain ⟨Q, j1, hQ⟩ := gradOp_exists o k4 k5 A.qubitExc hF
  have hK : A.gradK o M = .ok Q := by
    have hz1 : z = 1 := hz i (List.mem_of_getElem? k1) _ k3
    unfold UccAlg.gradK UccAlg.poolAt
    rw [pyIndex_ok k1, except_ok_bind, k3, except_ok_bind]
    simp only [j1, except_ok_bind, pure, Except.pure, hz1, multCoeffs_one]
  obtain ⟨temp, t1, w1, n1, p1⟩ := C24_apply_operator psi Q w (by rw [n]; exact hQ.exact)
  have t2 : UccAlg.gradVal sig temp = .ok (2 * (inner A.nqb sig.psi temp.psi).re) := by
    unfold UccAlg.gradVal Computer.dot
    rw [innerProd_inner w3 w1 (by rw [n1, n3]), except_ok_bind, n3, n]; rfl
  obtain ⟨g, r1, r2⟩ := gradLoop_runs o h hz hV (undoes_trotter o h hz hs hc hN hV ts) (by omega) M hv Q psi sig [2 * (inner A.nqb sig.psi temp.psi).re] hK w n w3 (n3.trans n)
  refine ⟨g, 2 * (inner A.nqb sig.psi temp.psi).re, psi.psi, ?_, r2, p, ?_⟩
  · unfold UccAlg.measureGradient
    rw [e1, except_ok_bind, e2, except_ok_bind, e3, except_ok_bind, h2, h3]
    simp only
    rw [hK, except_ok_bind, t1, except_ok_bind, t2, except_ok_bind, Option.getD_some, r1]
  · rw [p3, p1, hQ.op]

/-- a three-qubit algorithm with two steps of the Trotter product -/
noncomputable def trotterAlg : UccAlg where
  nqb := 3
  uprep := [gX 0]
  ham := [(1, [gZ 2])]
  pool := [(1, excTerms [1] [0]), (1, excTerms [2] [1])]
  tops := [0, 1]
  tamps := [Real.pi, Real.pi / 2]
  qubitExc := true
  trotterNumber := 2

/-- matrix elements of the two operators -/
def hop (p q I : ℕ) : ℝ := if I.testBit p ∧ ¬ I.testBit q then 1 else if I.testBit q ∧ ¬ I.testBit p then -1 else 0

theorem kappa_hop {p q : ℕ} (h : p ≠ q) (I : ℕ) : kappa true [p] [q] (fun _ => 1) I = hop p q I := by
  have hn : ([p] ++ [q] : List ℕ).Nodup := by simpa using h
  have := strings_apply hn (fun _ => 1) I
  simp only [kappa, if_true, LinearMap.sub_apply, Pi.sub_apply]
  rw [this.2.2.1, this.2.2.2]
  rw [if_congr (reached_flip hn I) rfl rfl]
  unfold hop
  by_cases a : I.testBit p <;> by_cases b : I.testBit q <;> simp [Reached, a, b]

/-- the flow of one hop -/
theorem hop_flow {p q : ℕ} (h : p ≠ q) {V : ℝ → Op} (hV : IsFlow (kappa true [p] [q]) V) (s : ℝ) (ψ : St) (I : ℕ) :
    V s ψ I = (Real.cos (s * hop p q I) : ℂ) * ψ I + (Real.sin (s * hop p q I) : ℂ) * ψ (I ^^^ lmask (caList [p] [q])) ∧
    kappa true [p] [q] ψ I = hop p q I * ψ (I ^^^ lmask (caList [p] [q])) := by
  obtain ⟨k, hK, ha⟩ := kappa_skew true [p] [q]
  have hk : ∀ I, k I = hop p q I := by
    intro I
    have h1 := kappa_hop h I
    rw [hK] at h1
    simpa using h1
  rw [(hV s).unique (isExp_skew hK ha s), skewExp_apply, hK, hk]
  exact ⟨rfl, rfl⟩

theorem lm10 : lmask (caList [1] [0]) = 3 := by decide
theorem lm21 : lmask (caList [2] [1]) = 6 := by decide

theorem hop_values : (∀ I < 8, hop 1 0 I = if I = 1 ∨ I = 5 then -1 else if I = 2 ∨ I = 6 then 1 else 0) ∧
    (∀ I < 8, hop 2 1 I = if I = 2 ∨ I = 3 then -1 else if I = 4 ∨ I = 5 then 1 else 0) := by
  constructor <;> intro I hI <;> interval_cases I <;> simp [hop, Nat.testBit, Nat.shiftRight_eq_div_pow]

/-- the state of the example: two Trotter steps with half the amplitudes `π` and `s` -/
theorem trotter_state {V W : ℝ → Op} (hV : IsFlow (kappa true [1] [0]) V) (hW : IsFlow (kappa true [2] [1]) W) (s : ℝ) :
    ∀ I < 8, (uccOp [V, W] [Real.pi / 2, s / 2] ^ 2) (Pi.single 1 1) I =
      if I = 1 then -(Real.cos (s / 2) : ℂ) else if I = 2 then -(Real.sin (s / 2) : ℂ) ^ 2
      else if I = 4 then (Real.sin (s / 2) : ℂ) * Real.cos (s / 2) else 0 := by
  have e : ∀ ψ : St, (uccOp [V, W] [Real.pi / 2, s / 2] ^ 2) ψ = W (s / 2) (V (Real.pi / 2) (W (s / 2) (V (Real.pi / 2) ψ))) := by
    intro ψ
    rw [pow_two, uccOp_cons, uccOp_cons, uccOp_nil, one_mul]
    rfl
  intro I hI
  rw [e]
  obtain ⟨h1, h2⟩ := hop_values
  interval_cases I
  all_goals
    simp only [(hop_flow (by decide : 2 ≠ 1) hW _ _ _).1, (hop_flow (by decide : 1 ≠ 0) hV _ _ _).1, lm10, lm21, Nat.reduceXor]
    simp [h1, h2]
  all_goals ring

theorem trotterAlg_selects : trotterAlg.Selects [([1], [0]), ([2], [1])] := by
  have x1 : Excit 3 [1] [0] := by constructor <;> simp
  have x2 : Excit 3 [2] [1] := by constructor <;> simp
  exact .cons ⟨1, rfl, x1, by simp⟩ (.cons ⟨1, rfl, x2, by simp⟩ .nil)

theorem trotterAlg_ham : ∀ t ∈ trotterAlg.ham, t.1.im = 0 ∧ t.2.PauliString 3 := by
  intro t ht
  simp only [trotterAlg, List.mem_cons, List.not_mem_nil, or_false] at ht
  subst ht
  refine ⟨by norm_num, ⟨?_, ?_, ?_⟩⟩
  · intro g hg
    simp only [List.mem_cons, List.not_mem_nil, or_false] at hg
    subst hg; exact pauliGate_Z _
  · simp [gZ]
  · intro g hg
    simp only [List.mem_cons, List.not_mem_nil, or_false] at hg
    subst hg; simp [gZ]

theorem trotterAlg_ready : trotterAlg.Ready := by
  refine ⟨Computer.WF.init 3, rfl, ⟨?_, ?_⟩, ?_⟩
  · intro g hg
    simp only [trotterAlg, List.mem_cons, List.not_mem_nil, or_false] at hg
    subst hg; simp [gX, trotterAlg]
  · intro g hg
    simp only [trotterAlg, List.mem_cons, List.not_mem_nil, or_false] at hg
    subst hg; exact (pauliGate_X _).exact
  · intro t ht
    have := (trotterAlg_ham t ht).2
    exact ⟨this.fits, fun g hg => (this.gates g hg).exact⟩

theorem trotterAlg_hamop (ψ : St) (I : ℕ) : trotterAlg.ham.op ψ I = if I.testBit 2 then -ψ I else ψ I := by
  have e : trotterAlg.ham.op = opZ 2 := by
    show QubitOperator.op [(1, [gZ 2])] = _
    simp [QubitOperator.op, Circuit.op]
  rw [e, opZ_apply]
  by_cases h : I.testBit 2 <;> simp [h]

theorem trotterAlg_reference : trotterAlg.reference = Pi.single 1 1 := by
  have e : trotterAlg.reference = opX 0 (Computer.init 3).psi := by
    show Circuit.op [gX 0] (Computer.init 3).psi = _
    simp [Circuit.op]
  rw [e]
  funext I
  rw [opX_apply, init_psi, Pi.single_apply]
  have : flipBit I 0 = 0 ↔ I = 1 := by
    constructor
    · intro h
      have := flipBit_flipBit I 0
      rw [h] at this; rw [← this]; decide
    · rintro rfl; decide
  simp [this]

theorem big_resolved {x : List ℕ × List ℕ} {t : ℝ} (h : (x.1 ++ x.2).toFinset.card = 2) (ht : 1 ≤ t) : AmpResolved x t := by
  refine .inr ?_
  rw [h, abs_of_pos (by linarith)]
  norm_num; linarith

/-- the energy of the example -/
theorem trotterAlg_energy (o : DescSort) (so : SortOracle) (s : ℝ) (hs : AmpResolved ([2], [1]) s) :
    trotterAlg.energyFeval o so none [Real.pi, s] = .ok (1 - Real.sin s ^ 2 / 2) := by
  obtain ⟨Vs, hV⟩ := flows_exist true [(([1] : List ℕ), ([0] : List ℕ)), ([2], [1])]
  have hV' := hV
  obtain ⟨V, W, hVV, hW, rfl⟩ : ∃ V W, IsFlow (kappa true [1] [0]) V ∧ IsFlow (kappa true [2] [1]) W ∧ Vs = [V, W] := by
    cases hV with
    | cons a b => cases b with
      | cons c d => cases d; exact ⟨_, _, a, c, rfl⟩
  have hr : ∀ p ∈ List.zip [Real.pi, s] [(([1] : List ℕ), ([0] : List ℕ)), ([2], [1])], AmpResolved p.2 p.1 := by
    intro p hp
    simp only [List.zip_cons_cons, List.zip_nil_right, List.mem_cons, List.not_mem_nil, or_false] at hp
    rcases hp with rfl | rfl
    · exact big_resolved rfl (by linarith [Real.pi_gt_three])
    · exact hs
  obtain ⟨C, c1, c2, c3, c4⟩ := C70_exact o so trotterAlg _ trotterAlg_selects rfl rfl (by simp [trotterAlg]) _ hr _ hV'
  obtain ⟨U, q, e1, e2, w, n, p⟩ := build_of_ansatz o so trotterAlg _ trotterAlg_ready c1 c2 (fun g hg => (c3 g hg).2) c4
  obtain ⟨q', e3, _⟩ := C29_direct_op q trotterAlg.ham w (by rw [n]; exact trotterAlg_ready.ham)
  unfold UccAlg.energyFeval UccAlg.measureEnergy
  rw [e1, except_ok_bind, Option.getD_some, e2, except_ok_bind, e3, except_ok_bind]
  have hq : ∀ I < 8, q.psi I = if I = 1 then -(Real.cos (s / 2) : ℂ) else if I = 2 then -(Real.sin (s / 2) : ℂ) ^ 2
      else if I = 4 then (Real.sin (s / 2) : ℂ) * Real.cos (s / 2) else 0 := by
    intro I hI
    rw [p, trotterAlg_reference]
    have := trotter_state hVV hW s I hI
    simpa [trotterAlg] using this
  have hin : (inner q.nqubit q.psi (trotterAlg.ham.op q.psi)).re = 1 - Real.sin s ^ 2 / 2 := by
    have hn : q.nqubit = 3 := n
    rw [hn, inner, show (2 : ℕ) ^ 3 = 8 from rfl]
    have hs2 : Real.sin s = 2 * Real.sin (s / 2) * Real.cos (s / 2) := by
      rw [← Real.sin_two_mul]; congr 1; ring
    have hcs := Real.sin_sq_add_cos_sq (s / 2)
    have h4 : ∀ I, trotterAlg.ham.op q.psi I = if I.testBit 2 then -q.psi I else q.psi I := trotterAlg_hamop _
    simp only [Finset.sum_range_succ, Finset.sum_range_zero, h4, hq _ (by norm_num : 0 < 8), hq _ (by norm_num : 1 < 8), hq _ (by norm_num : 2 < 8),
      hq _ (by norm_num : 3 < 8), hq _ (by norm_num : 4 < 8), hq _ (by norm_num : 5 < 8), hq _ (by norm_num : 6 < 8), hq _ (by norm_num : 7 < 8)]
    rw [hs2]
    generalize Real.sin (s / 2) = a at hcs ⊢
    generalize Real.cos (s / 2) = b at hcs ⊢
    norm_num [Nat.testBit, Nat.shiftRight_eq_div_pow]
    norm_cast
    have : b ^ 2 = 1 - a ^ 2 := by linarith
    nlinarith
  simp only [pure, Except.pure]
  rw [hin]

/-- C71 refuted for `trotter_number = 2` (finding F38): on this three-qubit algorithm the energy `1 - sin²(s)/2` of `energy_feval([π, s])` is stationary at `s = π/2`,
but the last entry of `measure_gradient()` there is 1. -/
theorem C71_trotter_refuted (o : DescSort) (so : SortOracle) :
    trotterAlg.trotterNumber = 2 ∧ trotterAlg.tamps = [Real.pi, Real.pi / 2] ∧
    (∀ s : ℝ, 1 ≤ s → trotterAlg.energyFeval o so none [Real.pi, s] = .ok (1 - Real.sin s ^ 2 / 2)) ∧
    HasDerivAt (fun s : ℝ => 1 - Real.sin s ^ 2 / 2) 0 (Real.pi / 2) ∧
    HasDerivAt (fun s => trotterAlg.evalE o so (trotterAlg.tamps.set 1 s)) 0 (Real.pi / 2) ∧
    ∃ g, trotterAlg.measureGradient o so = .ok [g, 1] := by
  have hE : ∀ s : ℝ, 1 ≤ s → trotterAlg.energyFeval o so none [Real.pi, s] = .ok (1 - Real.sin s ^ 2 / 2) :=
    fun s hs => trotterAlg_energy o so s (big_resolved rfl hs)
  have hD : HasDerivAt (fun s : ℝ => 1 - Real.sin s ^ 2 / 2) 0 (Real.pi / 2) := by
    have := (((Real.hasDerivAt_sin (Real.pi / 2)).pow 2).div_const 2).const_sub 1
    simpa using this
  have hp : (1 : ℝ) < Real.pi / 2 := by linarith [Real.pi_gt_three]
  refine ⟨rfl, rfl, hE, hD, hD.congr_of_eventuallyEq ?_, ?_⟩
  · filter_upwards [lt_mem_nhds hp] with s hs
    have : trotterAlg.tamps.set 1 s = [Real.pi, s] := rfl
    rw [this, UccAlg.evalE, hE s hs.le]
  · obtain ⟨Vs, hV⟩ := flows_exist true [(([1] : List ℕ), ([0] : List ℕ)), ([2], [1])]
    have hV' := hV
    obtain ⟨V, W, hVV, hW, rfl⟩ : ∃ V W, IsFlow (kappa true [1] [0]) V ∧ IsFlow (kappa true [2] [1]) W ∧ Vs = [V, W] := by
      cases hV with
      | cons a b => cases b with
        | cons c d => cases d; exact ⟨_, _, a, c, rfl⟩
    have hr : ∀ p ∈ List.zip trotterAlg.tamps [(([1] : List ℕ), ([0] : List ℕ)), ([2], [1])], AmpResolved p.2 p.1 := by
      intro p hp
      simp only [trotterAlg, List.zip_cons_cons, List.zip_nil_right, List.mem_cons, List.not_mem_nil, or_false] at hp
      rcases hp with rfl | rfl
      · exact big_resolved rfl (by linarith [Real.pi_gt_three])
      · exact big_resolved rfl (by linarith)
    have hu : trotterAlg.UnitCoeffs := by
      intro i hi e he
      have : ∀ e ∈ trotterAlg.pool, e.1 = 1 := by simp [trotterAlg]
      exact this e (List.mem_of_getElem? he)
    obtain ⟨g, v, ψ, r1, r2, r3, r4⟩ := C71_last_entry o so trotterAlg _ trotterAlg_selects rfl rfl (by simp [trotterAlg]) hu trotterAlg.tamps hr _ hV' trotterAlg_ready
      rfl rfl 1 rfl ([2], [1]) rfl
    obtain ⟨g0, rfl⟩ := List.length_eq_one_iff.1 r2
    refine ⟨g0, ?_⟩
    have hv : v = 1 := by
      have hq : ∀ I < 8, ψ I = if I = 1 then -(Real.cos (Real.pi / 2 / 2) : ℂ) else if I = 2 then -(Real.sin (Real.pi / 2 / 2) : ℂ) ^ 2
          else if I = 4 then (Real.sin (Real.pi / 2 / 2) : ℂ) * Real.cos (Real.pi / 2 / 2) else 0 := by
        intro I hI
        rw [r3, trotterAlg_reference]
        have := trotter_state hVV hW (Real.pi / 2) I hI
        simpa [trotterAlg] using this
      have hcs := Real.sin_sq_add_cos_sq (Real.pi / 2 / 2)
      have hsc : Real.sin (Real.pi / 2 / 2) = Real.cos (Real.pi / 2 / 2) := by
        rw [show Real.pi / 2 / 2 = Real.pi / 4 by ring, Real.sin_pi_div_four, Real.cos_pi_div_four]
      have h4 : ∀ I, trotterAlg.ham.op ψ I = if I.testBit 2 then -ψ I else ψ I := trotterAlg_hamop _
      have h5 : ∀ I, kappa true [2] [1] ψ I = hop 2 1 I * ψ (I ^^^ lmask (caList [2] [1])) := fun I => (hop_flow (by decide) hW 0 ψ I).2
      have hh := hop_values.2
      rw [r4, show trotterAlg.nqb = 3 from rfl, show trotterAlg.qubitExc = true from rfl, inner, show (2 : ℕ) ^ 3 = 8 from rfl]
      simp only [Finset.sum_range_succ, Finset.sum_range_zero, h4, h5, lm21, Nat.reduceXor, hq _ (by norm_num : 0 < 8), hq _ (by norm_num : 1 < 8), hq _ (by norm_num : 2 < 8),
        hq _ (by norm_num : 3 < 8), hq _ (by norm_num : 4 < 8), hq _ (by norm_num : 5 < 8), hq _ (by norm_num : 6 < 8), hq _ (by norm_num : 7 < 8),
        hh _ (by norm_num : 0 < 8), hh _ (by norm_num : 1 < 8), hh _ (by norm_num : 2 < 8),
        hh _ (by norm_num : 3 < 8), hh _ (by norm_num : 4 < 8), hh _ (by norm_num : 5 < 8), hh _ (by norm_num : 6 < 8), hh _ (by norm_num : 7 < 8)]
      rw [hsc] at hcs ⊢
      generalize Real.cos (Real.pi / 2 / 2) = b at hcs ⊢
      norm_num [Nat.testBit, Nat.shiftRight_eq_div_pow]
      norm_cast
      have : b ^ 2 = 1 / 2 := by linarith
      have h4 : b ^ 4 = 1 / 4 := by rw [show b ^ 4 = (b ^ 2) ^ 2 by ring, this]; norm_num
      nlinarith
    rw [C71_default, r1, hv]; rfl

end QF
