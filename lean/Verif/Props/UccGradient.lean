import Verif.Props.UccAnsatz
import Verif.Props.Sparse

/-!
C71: `measure_gradient` is the gradient of the UCC energy.
-/
namespace QF

open SQOperator (DescSort jwTransform)
open QubitOperator (SortOracle)

/-- the Jordan-Wigner transform of an excitation as `measure_gradient` uses it -/
structure GradOp (n : ℕ) (V : ℝ → Op) (K : Op) (Q : QubitOperator) : Prop where
  op : Q.op = K
  exact : ∀ t ∈ Q, t.2.Fits n ∧ ∀ g ∈ t.2, ExactGate g
  undo : ∀ (t : ℝ) (N : ℤ), 1 ≤ N → ∃ C, trotterize Q (-(t : ℂ)) N = .ok (C, 1) ∧ C.op = V (-t) ∧ (∀ g ∈ C, ExactGate g) ∧ C.Fits n

theorem gradOp_exists (o : DescSort) {n : ℕ} {c a : List ℕ} (h : Excit n c a) (hr : c.length ≤ 19) (q : Bool) {V : ℝ → Op}
    (hV : IsFlow (kappa q c a) V) : ∃ Q, jwTransform o (excTerms c a) q = .ok (Q, excTerms c a) ∧ GradOp n V (kappa q c a) Q := by
  obtain ⟨Q, e, nQ, hop, hQ⟩ := jw_exc o h hr q
  obtain ⟨Q', R', e', hT⟩ := C69_excitation o n c a h hr q
  rw [e] at e'; cases e'
  have h0 : ∀ t ∈ Q, t.1 ≠ 0 := fun t ht => ne_zero_of_gt (hQ t ht).1
  have h2 := support_strings nQ.canonical (Normal.nodup nQ) (n := n) (by rw [hop]; exact acts_kappa q h.bound_c h.bound_a)
  refine ⟨Q, e, by rw [op_eq_opLR_canonical nQ.canonical, hop], ?_, ?_⟩
  · intro t ht
    refine ⟨fun g hg => ?_, fun g hg => ((nQ.canonical t ht).pauli g hg).exact⟩
    have := h2 t ht (h0 t ht) g hg
    rw [((nQ.canonical t ht).pauli g hg).control]
    exact ⟨this, this⟩
  · intro t N hN
    obtain ⟨C, e1, e2, e3, e4⟩ := hT (-t) N hN
    push_cast at e1
    exact ⟨C, e1, e2.unique (hV (-t)), fun g hg => (e3 g hg).2, e4⟩

theorem pyIndex_ok {α : Type} {l : List α} {i : ℕ} {x : α} (h : l[i]? = some x) : pyIndex l i = .ok x := by unfold pyIndex; rw [h]

theorem multCoeffs_one (Q : QubitOperator) : Q.multCoeffs 1 = Q := by
  unfold QubitOperator.multCoeffs
  conv_rhs => rw [← List.map_id Q]
  refine List.map_congr_left fun t _ => ?_
  simp

/-- every selected pool element has coefficient 1 -/
def UccAlg.UnitCoeffs (A : UccAlg) : Prop := ∀ i ∈ A.tops, ∀ e, A.pool[i]? = some e → e.1 = 1

theorem selects_get {A : UccAlg} {xs : List (List ℕ × List ℕ)} (h : A.Selects xs) {mu : ℕ} (hm : mu < A.tops.length) :
    ∃ i x z, A.tops[mu]? = some i ∧ xs[mu]? = some x ∧ A.pool[i]? = some (z, excTerms x.1 x.2) ∧ Excit A.nqb x.1 x.2 ∧ x.1.length ≤ 19 := by
  unfold UccAlg.Selects at h
  have hl := h.length_eq
  obtain ⟨z, h1, h2, h3⟩ := List.Forall₂.get h (i := mu) hm (by omega)
  exact ⟨_, _, z, List.getElem?_eq_getElem hm, List.getElem?_eq_getElem (by omega : mu < xs.length), h1, h2, h3⟩

theorem flows_get {q : Bool} {xs : List (List ℕ × List ℕ)} {Vs : List (ℝ → Op)} (h : Flows q xs Vs) {mu : ℕ} {x : List ℕ × List ℕ} (hx : xs[mu]? = some x) :
    ∃ hm : mu < Vs.length, IsFlow (kappa q x.1 x.2) Vs[mu] := by
  unfold Flows at h
  have hl := h.length_eq
  obtain ⟨hm, rfl⟩ := List.getElem?_eq_some_iff.1 hx
  exact ⟨by omega, List.Forall₂.get h hm (by omega)⟩

/-- `Kmu` as computed by the code -/
theorem gradK_ok (o : DescSort) {A : UccAlg} {xs : List (List ℕ × List ℕ)} (h : A.Selects xs) (hz : A.UnitCoeffs) {Vs : List (ℝ → Op)}
    (hV : Flows A.qubitExc xs Vs) {mu : ℕ} (hm : mu < A.tops.length) :
    ∃ (Q : QubitOperator) (K : Op) (hv : mu < Vs.length), A.gradK o mu = .ok Q ∧ GradOp A.nqb Vs[mu] K Q ∧ Flow A.nqb K Vs[mu] := by
  obtain ⟨i, x, z, h1, h2, h3, h4, h5⟩ := selects_get h hm
  obtain ⟨hv, hF⟩ := flows_get hV h2
  obtain ⟨Q, e, hQ⟩ := gradOp_exists o h4 h5 A.qubitExc hF
  refine ⟨Q, _, hv, ?_, hQ, kappa_flow h4.bound_c h4.bound_a hF⟩
  have hz1 : z = 1 := hz i (List.mem_of_getElem? h1) _ h3
  unfold UccAlg.gradK UccAlg.poolAt
  rw [pyIndex_ok h1, except_ok_bind, h3, except_ok_bind]
  simp only [e, except_ok_bind, pure, Except.pure, hz1, multCoeffs_one]

theorem flow_all {A : UccAlg} {xs : List (List ℕ × List ℕ)} (h : A.Selects xs) {Vs : List (ℝ → Op)} (hV : Flows A.qubitExc xs Vs) :
    ∀ V ∈ Vs, ∃ K, Flow A.nqb K V := by
  have hx := selects_sound h
  clear h
  unfold Flows at hV
  induction hV with
  | nil => simp
  | cons hF _ ih =>
    intro V hV
    rcases List.mem_cons.1 hV with rfl | hV
    · exact ⟨_, kappa_flow (hx _ (by simp)).1.bound_c (hx _ (by simp)).1.bound_a hF⟩
    · exact ih (fun x hx' => hx x (by simp [hx'])) V hV

/-- a qubit operator of exactly simulated gates on the register that denotes `K` -/
structure OpOn (n : ℕ) (K : Op) (Q : QubitOperator) : Prop where
  op : Q.op = K
  exact : ∀ t ∈ Q, t.2.Fits n ∧ ∀ g ∈ t.2, ExactGate g

theorem GradOp.on {n : ℕ} {V : ℝ → Op} {K : Op} {Q : QubitOperator} (h : GradOp n V K Q) : OpOn n K Q := ⟨h.op, h.exact⟩

/-- the operators that `measure_gradient` transforms generate the factors `Vs` of the ansatz -/
def UccAlg.GradOps (o : DescSort) (A : UccAlg) (Vs : List (ℝ → Op)) : Prop :=
  ∀ (mu : ℕ) (hv : mu < Vs.length), ∃ Q K, A.gradK o mu = .ok Q ∧ OpOn A.nqb K Q ∧ Flow A.nqb K Vs[mu]

theorem gradOps_exc (o : DescSort) {A : UccAlg} {xs : List (List ℕ × List ℕ)} (h : A.Selects xs) (hz : A.UnitCoeffs) {Vs : List (ℝ → Op)}
    (hV : Flows A.qubitExc xs Vs) : A.GradOps o Vs := by
  intro mu hv
  have h1 := List.Forall₂.length_eq h
  have h2 := List.Forall₂.length_eq hV
  obtain ⟨Q, K, _, e1, e2, e3⟩ := gradK_ok o h hz hV (mu := mu) (by omega)
  exact ⟨Q, K, e1, e2.on, e3⟩

theorem UccAlg.GradOps.flow {o : DescSort} {A : UccAlg} {Vs : List (ℝ → Op)} (h : A.GradOps o Vs) : ∀ V ∈ Vs, ∃ K, Flow A.nqb K V := by
  intro V hV
  obtain ⟨i, hi, rfl⟩ := List.mem_iff_getElem.1 hV
  obtain ⟨_, K, _, _, h⟩ := h i hi
  exact ⟨K, h⟩

/-- the entry of the gradient for slot `mu` -/
theorem grad_entry {A : UccAlg} {Vs : List (ℝ → Op)} (hF : ∀ V ∈ Vs, ∃ K, Flow A.nqb K V) {ts : List ℝ} (hl : Vs.length = ts.length)
    (hH : HermitianOn A.nqb A.ham.op) {Φ : St} (hΦ : OnReg A.nqb Φ) {mu : ℕ} (hv : mu < Vs.length) {K : Op} (hK : Flow A.nqb K Vs[mu]) {Q : QubitOperator}
    (hQ : OpOn A.nqb K Q) {psi sig : Computer} (wp : psi.WF) (np : psi.nqubit = A.nqb) (ws : sig.WF) (ns : sig.nqubit = A.nqb)
    (hp : psi.psi = uccOp (Vs.take (mu + 1)) (ts.take (mu + 1)) Φ)
    (hs : uccOp (Vs.drop (mu + 1)) (ts.drop (mu + 1)) sig.psi = A.ham.op (uccOp Vs ts Φ)) :
    ∃ temp g, psi.applyOperator Q = .ok temp ∧ UccAlg.gradVal sig temp = .ok g ∧
      HasDerivAt (fun s => uccEnergy A.nqb A.ham.op Φ Vs (ts.set mu s)) g (ts[mu]'(hl ▸ hv)) := by
  have hv' : mu < ts.length := hl ▸ hv
  obtain ⟨temp, e1, w1, n1, p1⟩ := C24_apply_operator psi Q wp (by rw [np]; exact hQ.exact)
  refine ⟨temp, 2 * (inner A.nqb sig.psi temp.psi).re, e1, ?_, ?_⟩
  · unfold UccAlg.gradVal Computer.dot
    rw [innerProd_inner ws w1 (by rw [n1, np, ns]), except_ok_bind, ns]; rfl
  · have hVe : Vs = Vs.take mu ++ Vs[mu] :: Vs.drop (mu + 1) := by rw [← List.drop_eq_getElem_cons hv, List.take_append_drop]
    have hte : ∀ s, ts.set mu s = ts.take mu ++ s :: ts.drop (mu + 1) := fun s => List.set_eq_take_append_cons_drop.trans (if_pos hv')
    have hte0 : ts = ts.take mu ++ ts[mu] :: ts.drop (mu + 1) := by rw [← List.drop_eq_getElem_cons hv', List.take_append_drop]
    have hlt : (Vs.take mu).length = (ts.take mu).length := by rw [List.length_take, List.length_take, hl]
    have := grad_formula (n := A.nqb) hH hΦ (pre := Vs.take mu) (post := Vs.drop (mu + 1)) (V := Vs[mu]) (K := K) (tpre := ts.take mu)
      (tpost := ts.drop (mu + 1)) (t := ts[mu]) hlt (fun V hV => hF V (List.mem_of_mem_take hV)) (fun V hV => hF V (List.mem_of_mem_drop hV)) hK
      (σ := sig.psi) (by rw [← hVe, ← hte0]; exact hs)
    rw [← hVe] at this
    simp only [← hte] at this
    convert! this using 4
    rw [p1, hQ.op, hp]
    congr 1
    rw [List.take_succ_eq_append_getElem hv, List.take_succ_eq_append_getElem hv', uccOp_append hlt, uccOp_cons, uccOp_nil, one_mul]
    rfl

/-- the circuit that takes factor `mu + 1` off the state again: its operator is `exp(-t κ)` and it is simulated exactly -/
def UccAlg.Undoes (o : DescSort) (A : UccAlg) (Vs : List (ℝ → Op)) (ts : List ℝ) : Prop :=
  ∀ (mu : ℕ) (hv : mu + 1 < Vs.length) (ht : mu + 1 < ts.length) (Q : QubitOperator), A.gradK o (mu + 1) = .ok Q →
    ∃ U, A.undoCircuit o ts[mu + 1] mu Q = .ok U ∧ U.op = Vs[mu + 1] (-ts[mu + 1]) ∧ (∀ g ∈ U, ExactGate g) ∧ U.Fits A.nqb

theorem undoes_trotter (o : DescSort) {A : UccAlg} {xs : List (List ℕ × List ℕ)} (h : A.Selects xs) (hz : A.UnitCoeffs) (hsa : A.saSD = false) (hc : A.compact = false)
    (hN : 1 ≤ A.trotterNumber) {Vs : List (ℝ → Op)} (hV : Flows A.qubitExc xs Vs) (ts : List ℝ) : A.Undoes o Vs ts := by
  intro mu hv ht Q eQ
  have hlx : A.tops.length = Vs.length := by
    have h1 := List.Forall₂.length_eq h
    have h2 := List.Forall₂.length_eq hV
    omega
  obtain ⟨Q', K, _, e1, hQ, _⟩ := gradK_ok o h hz hV (mu := mu + 1) (by omega)
  rw [e1] at eQ; cases eQ
  obtain ⟨U, e2, e3, e4, e5⟩ := hQ.undo ts[mu + 1] A.trotterNumber hN
  refine ⟨U, ?_, e3, e4, e5⟩
  obtain ⟨i, x, z, h1, h2, h3, _⟩ := selects_get h (mu := mu + 1) (by omega)
  unfold UccAlg.undoCircuit UccAlg.poolAt
  rw [pyIndex_ok h1, except_ok_bind, h3, except_ok_bind, hc, hsa]
  simp only [Bool.false_eq_true, if_false, e2, except_ok_bind, ne_eq, not_true_eq_false, pure, Except.pure]

theorem gradLoop_ok (o : DescSort) {A : UccAlg} {Vs : List (ℝ → Op)} (hG : A.GradOps o Vs) {ts : List ℝ} (hund : A.Undoes o Vs ts) (hl : Vs.length = ts.length)
    (hH : HermitianOn A.nqb A.ham.op) {Φ : St} (hΦ : OnReg A.nqb Φ) :
    ∀ (mu : ℕ) (hv : mu < Vs.length) (K : Op) (Q : QubitOperator) (psi sig : Computer) (grads : List ℝ), Flow A.nqb K Vs[mu] → A.gradK o mu = .ok Q →
      psi.WF → psi.nqubit = A.nqb → sig.WF → sig.nqubit = A.nqb →
      psi.psi = uccOp (Vs.take (mu + 1)) (ts.take (mu + 1)) Φ →
      uccOp (Vs.drop (mu + 1)) (ts.drop (mu + 1)) sig.psi = A.ham.op (uccOp Vs ts Φ) →
      grads.length + mu = ts.length →
      (∀ j (hj : j < ts.length) (hm : mu ≤ j) (hg : j - mu < grads.length), HasDerivAt (fun s => uccEnergy A.nqb A.ham.op Φ Vs (ts.set j s)) grads[j - mu] ts[j]) →
      ∃ g, A.gradLoop o ts mu Q psi sig grads = .ok g ∧ g.length = ts.length ∧
        ∀ j (hj : j < ts.length) (hg : j < g.length), HasDerivAt (fun s => uccEnergy A.nqb A.ham.op Φ Vs (ts.set j s)) g[j] ts[j] := by
  intro mu
  induction mu with
  | zero =>
    intro hv K Q psi sig grads _ _ _ _ _ _ _ _ hgl hd
    exact ⟨grads, rfl, by omega, fun j hj hg => hd j hj (by omega) (by simpa using hg)⟩
  | succ mu ih =>
    intro hv K Q psi sig grads hK hQ wp np ws ns hp hs hgl hd
    have hv' : mu + 1 < ts.length := by omega
    have hvm : mu < Vs.length := by omega
    obtain ⟨Q', K', e1, hQ', hK'⟩ := hG mu hvm
    obtain ⟨U, hU, e3, e4, e5⟩ := hund mu hv hv' Q hQ
    obtain ⟨sig', s1, s2, s3, s4⟩ := applyCircuit_exact (q := sig) U ws (by rw [ns]; exact e5) e4
    obtain ⟨psi', p1, p2, p3, p4⟩ := applyCircuit_exact (q := psi) U wp (by rw [np]; exact e5) e4
    have hlt : (Vs.take (mu + 1)).length = (ts.take (mu + 1)).length := by rw [List.length_take, List.length_take, hl]
    have hp' : psi'.psi = uccOp (Vs.take (mu + 1)) (ts.take (mu + 1)) Φ := by
      rw [p4, hp, e3, List.take_succ_eq_append_getElem hv, List.take_succ_eq_append_getElem hv', uccOp_append hlt, uccOp_cons, uccOp_nil, one_mul]
      have := hK.inv ts[mu + 1]
      rw [Module.End.mul_apply, ← Module.End.mul_apply, this]; rfl
    have hs' : uccOp (Vs.drop (mu + 1)) (ts.drop (mu + 1)) sig'.psi = A.ham.op (uccOp Vs ts Φ) := by
      rw [List.drop_eq_getElem_cons hv, List.drop_eq_getElem_cons hv', uccOp_cons, Module.End.mul_apply, s4, e3]
      have := hK.inv (-ts[mu + 1])
      rw [neg_neg] at this
      rw [← Module.End.mul_apply (Vs[mu + 1] _), this]
      exact hs
    obtain ⟨temp, g, t1, t2, t3⟩ := grad_entry hG.flow hl hH hΦ hvm hK' hQ' p2 (p3.trans np) s2 (s3.trans ns) hp' hs'
    obtain ⟨r, r1, r2⟩ := ih hvm K' Q' psi' sig' (g :: grads) hK' e1 p2 (p3.trans np) s2 (s3.trans ns) hp' hs' (by simp; omega) (by
      intro j hj hm hg
      by_cases e : j = mu
      · subst e; simpa using t3
      · have : j - mu = (j - (mu + 1)) + 1 := by omega
        simp only [this, List.getElem_cons_succ]
        exact hd j hj (by omega) (by simp at hg; omega))
    refine ⟨r, ?_, r2⟩
    rw [UccAlg.gradLoop, pyIndex_ok (List.getElem?_eq_getElem hv'), except_ok_bind, e1, except_ok_bind, hU, except_ok_bind, s1, except_ok_bind, p1,
      except_ok_bind, t1, except_ok_bind, t2, except_ok_bind, r1]

/-- `measure_gradient` for any ansatz circuit that is the disentangled UCC operator and any circuits that undo its factors -/
theorem gradient_of_ansatz (o : DescSort) (so : SortOracle) (A : UccAlg) (ts : List ℝ)
    (Vs : List (ℝ → Op)) (hG : A.GradOps o Vs) (hlx : A.tops.length = Vs.length) (hR : A.Ready) (hH : HermitianOn A.nqb A.ham.op)
    (h1 : ts.length = A.tops.length) (h2 : A.tamps.length = A.tops.length) (h3 : A.tops ≠ []) (hund : A.Undoes o Vs ts) {U : Circuit} {psi : Computer}
    (e1 : A.buildUvqc o so (some ts) = .ok U) (e2 : A.initialComputer.applyCircuit U = .ok psi) (w : psi.WF) (n : psi.nqubit = A.nqb)
    (p : psi.psi = uccOp Vs ts A.reference) :
    ∃ g, A.measureGradient o so (some ts) = .ok g ∧ g.length = ts.length ∧
      ∀ j (hj : j < ts.length) (hg : j < g.length), HasDerivAt (fun s => uccEnergy A.nqb A.ham.op A.reference Vs (ts.set j s)) g[j] ts[j] := by
  obtain ⟨sig, e3, w3, n3, p3⟩ := C24_apply_operator psi A.ham w (by rw [n]; exact hR.ham)
  obtain ⟨M, hM⟩ : ∃ M, A.tamps.length = M + 1 := by
    have : 0 < A.tops.length := List.length_pos_iff.2 h3
    exact ⟨A.tamps.length - 1, by omega⟩
  have hΦ : OnReg A.nqb A.reference := by
    obtain ⟨q, _, wq, nq, pq⟩ := applyCircuit_exact (q := A.initialComputer) A.uprep hR.wf (by rw [hR.size]; exact hR.prep.1) hR.prep.2
    unfold UccAlg.reference
    rw [← pq, ← hR.size, ← nq]
    exact psi_onReg wq
  have hv : M < Vs.length := by omega
  obtain ⟨Q, K, k1, hQ, hK⟩ := hG M hv
  have hp : psi.psi = uccOp (Vs.take (M + 1)) (ts.take (M + 1)) A.reference := by
    rw [List.take_of_length_le (by omega), List.take_of_length_le (by omega), p]
  have hsg : uccOp (Vs.drop (M + 1)) (ts.drop (M + 1)) sig.psi = A.ham.op (uccOp Vs ts A.reference) := by
    rw [List.drop_of_length_le (by omega), uccOp_nil, p3, p]; rfl
  have hl : Vs.length = ts.length := by omega
  obtain ⟨temp, g, t1, t2, t3⟩ := grad_entry hG.flow hl hH hΦ hv hK hQ w n w3 (n3.trans n) hp hsg
  obtain ⟨r, r1, r2⟩ := gradLoop_ok o hG hund hl hH hΦ M hv K Q psi sig [g] hK k1 w n w3 (n3.trans n) hp hsg (by simp; omega) (by
    intro j hj hm hg
    obtain rfl : j = M := by simp at hg; omega
    simpa using t3)
  refine ⟨r, ?_, r2⟩
  unfold UccAlg.measureGradient
  rw [e1, except_ok_bind, e2, except_ok_bind, e3, except_ok_bind, hM]
  simp only
  rw [k1, except_ok_bind, t1, except_ok_bind, t2, except_ok_bind, Option.getD_some, r1]

/-- C71: with unit pool coefficients, one Trotter step and resolved amplitudes, entry `μ` of `measure_gradient(params)` is the
partial derivative of the UCC energy with respect to amplitude `μ`. -/
theorem C71_gradient (o : DescSort) (so : SortOracle) (A : UccAlg) (xs : List (List ℕ × List ℕ)) (h : A.Selects xs) (hs : A.saSD = false)
    (hc : A.compact = false) (hN : A.trotterNumber = 1) (hz : A.UnitCoeffs) (ts : List ℝ) (hr : ∀ p ∈ List.zip ts xs, AmpResolved p.2 p.1)
    (Vs : List (ℝ → Op)) (hV : Flows A.qubitExc xs Vs) (hR : A.Ready) (hH : HermitianOn A.nqb A.ham.op)
    (h1 : ts.length = A.tops.length) (h2 : A.tamps.length = A.tops.length) (h3 : A.tops ≠ []) :
    ∃ g, A.measureGradient o so (some ts) = .ok g ∧ g.length = ts.length ∧
      ∀ j (hj : j < ts.length) (hg : j < g.length), HasDerivAt (fun s => uccEnergy A.nqb A.ham.op A.reference Vs (ts.set j s)) g[j] ts[j] := by
  obtain ⟨U, psi, e1, e2, w, n, p⟩ := build_ok o so A xs h hs hc hN ts hr Vs hV hR
  have l1 := List.Forall₂.length_eq h
  have l2 := List.Forall₂.length_eq hV
  exact gradient_of_ansatz o so A ts Vs (gradOps_exc o h hz hV) (by omega) hR hH h1 h2 h3 (undoes_trotter o h hz hs hc (by omega) hV ts) e1 e2 w n p

/-- `measure_gradient()` uses the stored amplitudes -/
theorem C71_default (o : DescSort) (so : SortOracle) (A : UccAlg) : A.measureGradient o so = A.measureGradient o so (some A.tamps) := rfl

/-- the energy as a function of the amplitudes, 0 where `energy_feval` raises -/
noncomputable def UccAlg.evalE (o : DescSort) (so : SortOracle) (A : UccAlg) (ts : List ℝ) : ℝ :=
  match A.energyFeval o so none ts with
  | .ok e => e
  | .error _ => 0

/-- C71: at non-zero resolved amplitudes the gradient is that of the function `energy_feval` computes. -/
theorem C71_gradient_of_feval (o : DescSort) (so : SortOracle) (A : UccAlg) (xs : List (List ℕ × List ℕ)) (h : A.Selects xs) (hs : A.saSD = false)
    (hc : A.compact = false) (hN : A.trotterNumber = 1) (hz : A.UnitCoeffs) (ts : List ℝ)
    (hr : ∀ p ∈ List.zip ts xs, (1e-12 * 2 ^ (p.2.1 ++ p.2.2).toFinset.card : ℝ) < 2 * |p.1|) (hR : A.Ready) (hH : HermitianOn A.nqb A.ham.op)
    (h1 : ts.length = A.tops.length) (h2 : A.tamps.length = A.tops.length) (h3 : A.tops ≠ []) :
    ∃ g, A.measureGradient o so (some ts) = .ok g ∧ g.length = ts.length ∧
      ∀ j (hj : j < ts.length) (hg : j < g.length), HasDerivAt (fun s => A.evalE o so (ts.set j s)) g[j] ts[j] := by
  obtain ⟨Vs, hV⟩ := flows_exist A.qubitExc xs
  obtain ⟨g, e1, e2, e3⟩ := C71_gradient o so A xs h hs hc hN hz ts (fun p hp => .inr (hr p hp)) Vs hV hR hH h1 h2 h3
  refine ⟨g, e1, e2, fun j hj hg => (e3 j hj hg).congr_of_eventuallyEq ?_⟩
  have hlx := List.Forall₂.length_eq h
  have hjx : j < xs.length := by omega
  have hopen : ∀ᶠ s in nhds ts[j], (1e-12 * 2 ^ ((xs[j]).1 ++ (xs[j]).2).toFinset.card : ℝ) < 2 * |s| := by
    have := hr (ts[j], xs[j]) (List.mem_iff_getElem.2 ⟨j, by simp; omega, by simp⟩)
    exact (continuous_const.mul continuous_abs).continuousAt.eventually (lt_mem_nhds this)
  filter_upwards [hopen] with s hsx
  unfold UccAlg.evalE
  rw [C70_energy o so A xs h hs hc hN (ts.set j s) ?_ Vs hV hR]
  intro p hp
  obtain ⟨k, hk, rfl⟩ := List.mem_iff_getElem.1 hp
  rw [List.getElem_zip]
  simp only
  have hk' : k < ts.length ∧ k < xs.length := by simp at hk; omega
  by_cases e : j = k
  · subst e; rw [List.getElem_set_self]; exact .inr hsx
  · rw [List.getElem_set_ne e]
    exact .inr (hr (ts[k], xs[k]) (List.mem_iff_getElem.2 ⟨k, by simp; omega, by simp⟩))

theorem groupStep_zero (o : DescSort) (so : SortOracle) {n : ℕ} {c a : List ℕ} (h : Excit n c a) (hr : c.length ≤ 19) (q : Bool) :
    ∃ δ > 0, ∀ s : ℝ, |s| < δ → ∀ parent, SQOpPool.groupStep o so true q parent ((s : ℂ), excTerms c a) = .ok parent := by
  have hd : ∀ x ∈ excTerms c a, x.2.1.length + x.2.2.length ≤ 39 := by
    intro x hx
    have := h.rank
    rcases exc_mem hx with ⟨_, e⟩ | ⟨_, e⟩ <;> rw [e] <;> simp only <;> omega
  obtain ⟨Q, e, _⟩ := jw_exc o h hr q
  let S : ℝ := (Q.map fun u => ‖u.1‖).sum
  have hS : ∀ u ∈ Q, ‖u.1‖ ≤ S := fun u hu => List.single_le_sum (by
    intro x hx; obtain ⟨v, _, rfl⟩ := List.mem_map.1 hx; exact norm_nonneg _) _ (List.mem_map.2 ⟨u, hu, rfl⟩)
  have hS0 : 0 ≤ S := List.sum_nonneg (by intro x hx; obtain ⟨v, _, rfl⟩ := List.mem_map.1 hx; exact norm_nonneg _)
  refine ⟨1e-12 / (1 + S), by positivity, fun s hs parent => ?_⟩
  obtain ⟨Q', R', B, e1, _, e2, p, hp⟩ := groupStep_ok o so true q ((s : ℂ), excTerms c a) (exc_distinct h) hd
  simp only at e1 p
  rw [e] at e1; cases e1
  have hB : B = [] := by
    have : ((Q.multCoeffs (s : ℂ)).filter fun t => decide (‖t.1‖ > 1e-12)) = [] := by
      rw [List.filter_eq_nil_iff]
      intro t ht
      obtain ⟨u, hu, rfl⟩ := List.mem_map.1 ht
      simp only [norm_mul, Complex.norm_real, Real.norm_eq_abs, decide_eq_true_eq, gt_iff_lt, not_lt]
      rw [lt_div_iff₀ (by positivity)] at hs
      have := hS u hu
      nlinarith [abs_nonneg s, norm_nonneg u.1]
    rw [this] at p
    exact p.eq_nil
  rw [hp, hB, List.append_nil]

theorem foldlM_skip {α β : Type} (f : β → α → Except Exc β) (l1 l2 : List α) (x : α) (hx : ∀ b, f b x = .ok b) (b : β) :
    (l1 ++ x :: l2).foldlM f b = (l1 ++ l2).foldlM f b := by
  rw [List.foldlM_append, List.foldlM_append]
  congr 1
  funext b
  rw [List.foldlM_cons, hx, except_ok_bind]

/-- C71: near zero the ansatz circuit, and with it `energy_feval`, does not depend on an amplitude at all: the terms are below the
threshold of `simplify`.  So the function that `energy_feval` computes has derivative 0 in that amplitude at 0, while
`measure_gradient` returns the derivative of the exact energy (`C71_gradient`). -/
theorem C71_flat_at_zero (o : DescSort) (so : SortOracle) (A : UccAlg) (xs : List (List ℕ × List ℕ)) (h : A.Selects xs) (hs : A.saSD = false)
    (hc : A.compact = false) (ts : List ℝ) (j : ℕ) (hj : j < ts.length) (hjx : j < xs.length) :
    (∃ δ > 0, ∀ s : ℝ, |s| < δ → ∀ par, A.energyFeval o so par (ts.set j s) = A.energyFeval o so par (ts.set j 0)) ∧
      HasDerivAt (fun s => A.evalE o so (ts.set j s)) 0 0 := by
  have hx := selects_sound h xs[j] (List.getElem_mem hjx)
  obtain ⟨δ, hδ, hstep⟩ := groupStep_zero o so hx.1 hx.2 A.qubitExc
  have hset : ∀ s : ℝ, List.zipWith (fun (t : ℝ) (x : List ℕ × List ℕ) => ((t : ℂ), excTerms x.1 x.2)) (ts.set j s) xs =
      List.zipWith (fun (t : ℝ) (x : List ℕ × List ℕ) => ((t : ℂ), excTerms x.1 x.2)) (ts.take j) (xs.take j) ++
        ((s : ℂ), excTerms (xs[j]).1 (xs[j]).2) :: List.zipWith (fun (t : ℝ) (x : List ℕ × List ℕ) => ((t : ℂ), excTerms x.1 x.2)) (ts.drop (j + 1)) (xs.drop (j + 1)) := by
    intro s
    have e1 : ts.set j s = ts.take j ++ s :: ts.drop (j + 1) := List.set_eq_take_append_cons_drop.trans (if_pos hj)
    have e2 : xs = xs.take j ++ xs[j] :: xs.drop (j + 1) := by rw [← List.drop_eq_getElem_cons hjx, List.take_append_drop]
    conv_lhs => rw [e1, e2]
    rw [List.zipWith_append (by simp; omega), List.zipWith_cons_cons]
  have key : ∀ s : ℝ, |s| < δ → A.ansatzCircuit o so (some (ts.set j s)) = A.ansatzCircuit o so (some (ts.set j 0)) := by
    intro s hsδ
    unfold UccAlg.ansatzCircuit UccAlg.ansatzWith
    rw [Option.getD_some, Option.getD_some, tempPool_eq h hs, tempPool_eq h hs, except_ok_bind, except_ok_bind, hc]
    simp only [Bool.false_eq_true, if_false]
    unfold SQOpPool.getQubitOperator
    rw [if_neg (by decide), if_pos rfl, if_neg (by decide), if_pos rfl]
    simp only [hset]
    rw [foldlM_skip _ _ _ _ (hstep s hsδ), foldlM_skip _ _ _ _ (hstep 0 (by simpa using hδ))]
  have hE : ∀ s : ℝ, |s| < δ → ∀ par, A.energyFeval o so par (ts.set j s) = A.energyFeval o so par (ts.set j 0) := by
    intro s hsδ par
    unfold UccAlg.energyFeval UccAlg.buildUvqc
    rw [key s hsδ]
  refine ⟨⟨δ, hδ, hE⟩, ?_⟩
  have : (fun s => A.evalE o so (ts.set j s)) =ᶠ[nhds 0] fun _ => A.evalE o so (ts.set j 0) := by
    have hb : ∀ᶠ s : ℝ in nhds 0, |s| < δ := continuous_abs.continuousAt.eventually (gt_mem_nhds (by simpa using hδ))
    filter_upwards [hb] with s hsδ
    unfold UccAlg.evalE
    rw [hE s hsδ]
  exact (hasDerivAt_const _ _).congr_of_eventuallyEq this

/-- C71: without amplitudes `measure_gradient` raises. -/
theorem C71_no_amplitudes (o : DescSort) (so : SortOracle) (A : UccAlg) (xs : List (List ℕ × List ℕ)) (h : A.Selects xs) (hs : A.saSD = false)
    (hc : A.compact = false) (hN : A.trotterNumber = 1) (hR : A.Ready) (h0 : A.tamps = []) (h1 : A.tops = []) :
    A.measureGradient o so = .error .indexError := by
  obtain ⟨Vs, hV⟩ := flows_exist A.qubitExc xs
  obtain ⟨U, psi, e1, e2, w, n, p⟩ := build_ok o so A xs h hs hc hN [] (by simp) Vs hV hR
  obtain ⟨sig, e3, w3, n3, p3⟩ := C24_apply_operator psi A.ham w (by rw [n]; exact hR.ham)
  have e1' : A.buildUvqc o so none = .ok U := by rw [← e1]; unfold UccAlg.buildUvqc UccAlg.ansatzCircuit; rw [h0]; rfl
  unfold UccAlg.measureGradient
  rw [e1', except_ok_bind, e2, except_ok_bind, e3, except_ok_bind, h0]; rfl

/-- C71: with a single operator of real pool coefficient `z`, `measure_gradient` returns `z` times the derivative: the ansatz
ignores the coefficient of the pool element, the gradient does not. -/
theorem C71_pool_coefficient (o : DescSort) (so : SortOracle) (A : UccAlg) (c a : List ℕ) (i : ℕ) (z t : ℝ) (h1 : A.tops = [i]) (h2 : A.pool[i]? = some ((z : ℂ), excTerms c a))
    (hx : Excit A.nqb c a) (hl : c.length ≤ 19) (hs : A.saSD = false)
    (hc : A.compact = false) (hN : A.trotterNumber = 1) (hr : AmpResolved (c, a) t) (V : ℝ → Op) (hV : IsFlow (kappa A.qubitExc c a) V)
    (hR : A.Ready) (hH : HermitianOn A.nqb A.ham.op) (h3 : A.tamps.length = 1) :
    ∃ d, A.measureGradient o so (some [t]) = .ok [z * d] ∧ HasDerivAt (fun s => uccEnergy A.nqb A.ham.op A.reference [V] [s]) d t := by
  have hS : A.Selects [(c, a)] := by
    unfold UccAlg.Selects; rw [h1]
    exact .cons ⟨z, h2, hx, hl⟩ .nil
  have hF : Flows A.qubitExc [(c, a)] [V] := .cons hV .nil
  obtain ⟨U, psi, e1, e2, w, n, p⟩ := build_ok o so A _ hS hs hc hN [t] (by simpa using hr) [V] hF hR
  obtain ⟨sig, e3, w3, n3, p3⟩ := C24_apply_operator psi A.ham w (by rw [n]; exact hR.ham)
  obtain ⟨Q, e, hQ⟩ := gradOp_exists o hx hl A.qubitExc hV
  have hΦ : OnReg A.nqb A.reference := by
    obtain ⟨q, _, wq, nq, pq⟩ := applyCircuit_exact (q := A.initialComputer) A.uprep hR.wf (by rw [hR.size]; exact hR.prep.1) hR.prep.2
    unfold UccAlg.reference
    rw [← pq, ← hR.size, ← nq]
    exact psi_onReg wq
  obtain ⟨temp, g, t1, t2, t3⟩ := grad_entry (Vs := [V]) (mu := 0) (ts := [t]) (flow_all hS hF) rfl hH hΦ (by simp)
    (kappa_flow hx.bound_c hx.bound_a hV) hQ.on w n w3 (n3.trans n) (by simpa using p) (by simp [uccOp_nil, p3, p])
  refine ⟨g, ?_, by simpa using t3⟩
  have hQz : ∀ u ∈ Q.multCoeffs (z : ℂ), u.2.Fits psi.nqubit ∧ ∀ g ∈ u.2, ExactGate g := by
    intro u hu
    obtain ⟨v, hv, rfl⟩ := List.mem_map.1 hu
    rw [n]; exact hQ.exact v hv
  obtain ⟨temp', f1, f2, f3, f4⟩ := C24_apply_operator psi (Q.multCoeffs (z : ℂ)) w hQz
  obtain ⟨temp0, k1, k2, k3, k4⟩ := C24_apply_operator psi Q w (by rw [n]; exact hQ.exact)
  rw [t1] at k1; cases k1
  have hop : (Q.multCoeffs (z : ℂ)).op = (z : ℂ) • Q.op := by
    unfold QubitOperator.op QubitOperator.multCoeffs
    rw [List.map_map, List.smul_sum, List.map_map]
    congr 1
    refine List.map_congr_left fun u _ => ?_
    simp only [Function.comp_def, smul_smul, mul_comm]
  have hg : UccAlg.gradVal sig temp' = .ok (z * g) := by
    unfold UccAlg.gradVal Computer.dot at t2 ⊢
    rw [innerProd_inner w3 k2 (by rw [k3, n3]), except_ok_bind] at t2
    simp only [pure, Except.pure, Except.ok.injEq] at t2
    rw [innerProd_inner w3 f2 (by rw [f3, n3]), except_ok_bind, f4, hop, LinearMap.smul_apply, ← k4, ← t2]
    simp only [pure, Except.pure, inner, Pi.smul_apply, smul_eq_mul]
    congr 1
    have : ∀ I : ℕ, star (sig.psi I) * ((z : ℂ) * temp.psi I) = (z : ℂ) * (star (sig.psi I) * temp.psi I) := fun I => by ring
    simp only [Complex.star_def] at this ⊢
    rw [Finset.sum_congr rfl fun I _ => this I, ← Finset.mul_sum, Complex.re_ofReal_mul]
    ring
  unfold UccAlg.measureGradient
  rw [e1, except_ok_bind, e2, except_ok_bind, e3, except_ok_bind, h3]
  simp only
  have hgk : A.gradK o 0 = .ok (Q.multCoeffs (z : ℂ)) := by
    unfold UccAlg.gradK UccAlg.poolAt
    rw [pyIndex_ok (by rw [h1]; rfl : A.tops[0]? = some i), except_ok_bind, h2, except_ok_bind]
    simp only [e, except_ok_bind, pure, Except.pure]
  rw [hgk, except_ok_bind, f1, except_ok_bind, hg, except_ok_bind]
  rfl

end QF
