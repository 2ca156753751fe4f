import Verif.Props.SpqeRun
import Verif.Props.Krylov

/-!
C88: the run of SPQE with exact residuals (`M_omega = "inf"`).
-/
namespace QF

open SQOperator (DescSort)
open QubitOperator (SortOracle)
open SQOpPool

namespace Spqe

/-- what a run is started with: an occupation-list reference on `2k ≤ 64` spin orbitals with its preparation circuit, a Hamiltonian of Pauli strings with real
coefficients, standard ansatz circuits, and at most 19 excited electrons -/
structure Input (A : PqeAlg) (O : Opts) (k R : ℕ) (irr : List ℕ) : Prop where
  size : A.nqb = 2 * k
  pos : 0 < k
  small : k ≤ 32
  occ : Occ A.ref
  len : A.ref.length = 2 * k
  isRef : IsRefDet A.ref R
  prep : buildRefprep A.ref = .ok A.refprep
  irreps : k ≤ irr.length
  rank : ∀ r, O.rank = some r → 0 < r
  low : (A.ref.filter (· ≠ 0)).length ≤ 19 ∨ ∃ r, O.rank = some r ∧ r ≤ 19
  ready : A.Ready
  fresh : A.computer = none
  standard : A.compact = false
  steps : 1 ≤ A.trotterNumber
  ham : ∀ t ∈ A.ham, t.1.im = 0 ∧ t.2.PauliString A.nqb

/-- the pool of the determinants `dets` -/
noncomputable def poolOf (k R : ℕ) (dets : List ℕ) : List (ℂ × SQOperator) := dets.map fun I => (0, excTerms (holes (2 * k) I R) (holes (2 * k) R I))

/-- the states between the macro-iterations: the pool is that of the determinants, the ansatz consists of different pool operators, one amplitude for each -/
structure Inv (A : PqeAlg) (k R : ℕ) (dets : List ℕ) (st : State) : Prop where
  same : st.alg = { A with pool := poolOf k R dets, saSD := false, tops := st.alg.tops, tamps := st.alg.tamps }
  dict : st.toPool = dets.zipIdx
  nodup : st.alg.tops.Nodup
  mem : ∀ m ∈ st.alg.tops, m < dets.length
  len : st.alg.tamps.length = st.alg.tops.length
  nbody : st.nbody = nbodyOf (A.ref.filter (· ≠ 0)).length k R dets st.alg.tops

variable {A : PqeAlg} {O : Opts} {k R : ℕ} {irr : List ℕ} {irrep : ℕ} {st : State}

theorem holes_filter_le {ref : List ℕ} {k R : ℕ} (hl : ref.length = 2 * k) (hR : IsRefDet ref R) (I : ℕ) : (holes (2 * k) R I).length ≤ (ref.filter (· ≠ 0)).length := by
  rw [filter_length_range, hl]
  unfold holes
  rw [List.filter_reverse, List.length_reverse]
  apply List.Sublist.length_le
  apply List.monotone_filter_right
  intro i hi
  have := hR i
  simp only [Bool.and_eq_true] at hi
  rw [hi.1] at this
  have := of_decide_eq_true this.symm
  rw [decide_eq_true_iff, this]
  exact one_ne_zero

theorem Inv.sound (hI : Input A O k R irr) (h : Inv A k R (targets k R irr irrep O.rank) st) : Sound st.alg st.toPool k R (targets k R irr irrep O.rank) := by
  have e := h.same
  obtain ⟨c1, c2⟩ := C86_complete k R irr irrep O.rank
  refine ⟨by rw [e]; exact hI.size, hI.pos, hI.small, by rw [e]; exact hI.occ, by rw [e]; exact hI.len, by rw [e]; exact hI.isRef, by rw [e]; exact hI.prep, ?_,
    c2.imp fun h => ne_of_lt h, by rw [e]; rfl, h.dict, by rw [e], h.mem⟩
  intro I hm
  obtain ⟨t1, t2, t3, _, t5⟩ := (c1 I).1 hm
  refine ⟨t1, t2, t3, ?_⟩
  rcases hI.low with h19 | ⟨r, hr, h19⟩
  · exact (holes_filter_le hI.len hI.isRef I).trans h19
  · have := t5 r hr; omega

theorem Inv.ready (hI : Input A O k R irr) {dets : List ℕ} (h : Inv A k R dets st) : st.alg.Ready := by
  rw [h.same]; exact ⟨hI.ready.wf, hI.ready.size, hI.ready.prep, hI.ready.ham⟩

/-- what is asked of `scipy.optimize.minimize`: as many parameters as it was given -/
def MinimizeContract (X : Ext) : Prop := ∀ B x, X.minimize B = .ok x → x.length = B.tamps.length

theorem solve_inv (o : DescSort) (so : SortOracle) (par : Option Schedule) {X : Ext} (hX : MinimizeContract X) {B : PqeAlg} {d : List (ℕ × ℕ)} {x : List ℝ} {e : ℝ}
    (h : solveFor o so par X O B d = .ok (x, e)) : x.length = B.tamps.length ∧ B.energyFeval o so par x = .ok e := by
  unfold solveFor at h
  split at h
  · obtain ⟨⟨x', e', k'⟩, h1, h⟩ := bindOk h
    cases h
    exact ⟨C75_length _ _ _ _ _ h1, (C75_run _ _ _ _ _ h1).2.2.1⟩
  · split at h
    · obtain ⟨_, _, h⟩ := bindOk h
      obtain ⟨x', h1, h⟩ := bindOk h
      obtain ⟨e', h2, h⟩ := bindOk h
      cases h
      exact ⟨hX _ _ h1, h2⟩
    · cases h

/-- the new operators -/
theorem updated_new {O : Opts} {w : ℕ → ℝ} {dets : List ℕ} {st : State} {new : List ℕ}
    (h1 : O.cumulative = true → Chosen w O.thresh (cands dets st.alg.tops) new)
    (h2 : O.cumulative = false → (cands dets st.alg.tops = [] ∧ new = []) ∨ ∃ m ∈ cands dets st.alg.tops, new = [m] ∧ ∀ a ∈ cands dets st.alg.tops, w a ≤ w m) :
    new.Nodup ∧ ∀ m ∈ new, m < dets.length ∧ m ∉ st.alg.tops := by
  have hcn : (cands dets st.alg.tops).Nodup := List.nodup_range.filter _
  have hcm : ∀ m ∈ cands dets st.alg.tops, m < dets.length ∧ m ∉ st.alg.tops := fun m hm =>
    ⟨List.mem_range.1 (List.mem_filter.1 hm).1, of_decide_eq_true (List.mem_filter.1 hm).2⟩
  cases hc : O.cumulative
  · rcases h2 hc with ⟨_, rfl⟩ | ⟨m, hm, rfl, _⟩
    · simp
    · simp only [List.nodup_singleton, List.mem_singleton, forall_eq, true_and]
      exact hcm m hm
  · obtain ⟨rest, s1, _⟩ := (h1 hc).split
    have := s1.nodup_iff.2 hcn
    rw [List.nodup_append] at this
    exact ⟨this.2.1, fun m hm => hcm m (s1.mem_iff.1 (by simp [hm]))⟩

/-- the invariant after an update that does not converge and a solve -/
theorem Inv.step {dets : List ℕ} (h : Inv A k R dets st) {st1 : State} {w : ℕ → ℝ} {new : List ℕ} (hd : st1.toPool = st.toPool)
    (ha : st1.alg = { st.alg with tops := new ++ st.alg.tops, tamps := (new.map fun _ => 0) ++ st.alg.tamps })
    (h1 : O.cumulative = true → Chosen w O.thresh (cands dets st.alg.tops) new)
    (h2 : O.cumulative = false → (cands dets st.alg.tops = [] ∧ new = []) ∨ ∃ m ∈ cands dets st.alg.tops, new = [m] ∧ ∀ a ∈ cands dets st.alg.tops, w a ≤ w m)
    (hb : st1.nbody = nbodyOf (A.ref.filter (· ≠ 0)).length k R dets (new ++ st.alg.tops)) {x : List ℝ} (hx : x.length = st1.alg.tamps.length) {e : ℝ} {i : ℤ} :
    Inv A k R dets { st1 with alg := { st1.alg with tamps := x }, energies := st1.energies ++ [e], iter := i } := by
  obtain ⟨n1, n2⟩ := updated_new h1 h2
  have ht : st1.alg.tops = new ++ st.alg.tops := by rw [ha]
  refine ⟨?_, hd.trans h.dict, ?_, ?_, ?_, ?_⟩
  · simp only
    rw [ha]
    simp only
    conv_lhs => rw [h.same]
  · simp only; rw [ht, List.nodup_append]
    exact ⟨n1, h.nodup, fun a ha b hb e => by subst e; exact (n2 a ha).2 hb⟩
  · simp only; rw [ht]
    intro m hm
    rcases List.mem_append.1 hm with hm | hm
    · exact (n2 m hm).1
    · exact h.mem m hm
  · simp only; rw [hx, ha]; simp [h.len]
  · simp only; rw [ht]; exact hb

/-- the reason why a run has converged: the estimate of the residual norm with the final ansatz is below the threshold, or all operators are in the ansatz (only
with the threshold zero) -/
def Reached (o : DescSort) (so : SortOracle) (O : Opts) (eiH : Circuit) (dets : List ℕ) (st : State) : Prop :=
  ∃ C : Circuit, st.alg.ansatzCircuit o so (some st.alg.tamps) = .ok C ∧
    st.resNorm = ((cands dets st.alg.tops).map fun m => estimate st.alg.nqb eiH.op C.op st.alg.reference O.dt (dets.getD m 0)).sum ∧
    (st.resNorm < O.thresh * O.thresh ∨ (O.thresh = 0 ∧ cands dets st.alg.tops = []))

/-- what the loop has achieved when it ends -/
structure Outcome (o : DescSort) (so : SortOracle) (par : Option Schedule) (O : Opts) (A : PqeAlg) (k R : ℕ) (dets : List ℕ) (eiH : Circuit) (st st' : State) (es : List ℝ) :
    Prop where
  inv : Inv A k R dets st'
  energies : st'.energies = st.energies ++ es
  value : ∀ e, es.getLast? = some e → st'.alg.energyFeval o so par st'.alg.tamps = .ok e
  start : es = [] → st'.alg = st.alg
  count : es.length ≤ (O.maxiter + 1 - st.iter).toNat + 1
  stop : (st'.converged = true ∧ Reached o so O eiH dets st') ∨ (st'.converged = false ∧ es.length = (O.maxiter + 1 - st.iter).toNat + 1)

theorem updateInf_energy {o : DescSort} {so : SortOracle} {par : Option Schedule} {O : Opts} {eiH : Circuit} {st st' : State} (h : updateInf o so par O eiH st = .ok st') :
    ∃ e, st.alg.energyFeval o so par st.alg.tamps = .ok e := by
  unfold updateInf at h
  obtain ⟨e, h1, _⟩ := bindOk h
  exact ⟨e, h1⟩

theorem Inv.update (hI : Input A O k R irr) {dets : List ℕ} (hdets : dets = targets k R irr irrep O.rank) (h : Inv A k R dets st) (o : DescSort) (so : SortOracle)
    (par : Option Schedule) (eiH : Circuit) (hs : st.stop = false) (hv : st.converged = false) (hF : eiH.Fits A.nqb) (hX : ∀ g ∈ eiH, ExactGate g) {e : ℝ}
    (hE : st.alg.energyFeval o so par st.alg.tamps = .ok e) :
    ∃ (C : Circuit) (st' : State), st.alg.ansatzCircuit o so (some st.alg.tamps) = .ok C ∧ updateInf o so par O eiH st = .ok st' ∧
      Updated O (fun m => estimate st.alg.nqb eiH.op C.op st.alg.reference O.dt (dets.getD m 0)) (A.ref.filter (· ≠ 0)).length k R dets st st' := by
  subst hdets
  have hn : st.alg.nqb = A.nqb := by rw [h.same]
  have hr : st.alg.ref = A.ref := by rw [h.same]
  have := C88_update o so par O eiH st k R _ (h.sound hI) (by rw [h.same]; exact hI.standard) (by rw [h.same]; exact hI.steps) (h.ready hI) (by rw [h.same]; exact hI.fresh) h.nodup
    (by rw [hr]; exact h.nbody) hs hv (by rw [hn]; exact hF) hX e hE
  rw [hr] at this
  exact this

theorem loop_outcome (o : DescSort) (so : SortOracle) (par : Option Schedule) (X : Ext) (hM : MinimizeContract X) (ho : O.omega = none) (hI : Input A O k R irr) {dets : List ℕ}
    (hdets : dets = targets k R irr irrep O.rank) (eiH : Circuit) (hF : eiH.Fits A.nqb) (hX : ∀ g ∈ eiH, ExactGate g) :
    ∀ (fuel : ℕ) (st st' : State), Inv A k R dets st → st.stop = false → st.converged = false → loop o so par X O eiH fuel st = .ok st' →
      ∃ es, Outcome o so par O A k R dets eiH st st' es := by
  intro fuel
  induction fuel with
  | zero => intro st st' _ _ _ h; cases h
  | succ fuel ih =>
    intro st st' hinv hs hv h
    unfold loop at h
    rw [if_neg (by simp [hs])] at h
    obtain ⟨st1, h1, h⟩ := bindOk h
    unfold updateAnsatz at h1
    rw [ho] at h1
    simp only at h1
    obtain ⟨e, hE⟩ := updateInf_energy h1
    obtain ⟨C, st1', c1, c2, hU⟩ := hinv.update hI hdets o so par eiH hs hv hF hX hE
    rw [h1] at c2
    rw [← Except.ok.inj c2] at hU
    rcases hU.outcome with ⟨a1, a2, a3, a4, a5, a6⟩ | ⟨b1, b2, b3, b4, new, b5, b6, b7, b8, b9⟩
    · rw [if_pos a1] at h
      obtain rfl : st1 = st' := Except.ok.inj h
      have hi : Inv A k R dets st1 := ⟨by rw [a3]; exact hinv.same, hU.keep.1.trans hinv.dict, by rw [a3]; exact hinv.nodup, by rw [a3]; exact hinv.mem, by rw [a3]; exact hinv.len,
        by rw [a3, a4]; exact hinv.nbody⟩
      refine ⟨[], hi, by rw [hU.keep.2.1, List.append_nil], by simp, fun _ => a3, by simp, .inl ⟨a1, C, by rw [a3]; exact c1, ?_, ?_⟩⟩
      · rw [hU.norm, a3]
      · rw [a3]; exact a6.imp_right fun h => ⟨h.1, h.2.1⟩
    · rw [if_neg (by simp [b1])] at h
      obtain ⟨st2, h2, h⟩ := bindOk h
      unfold solve at h2
      obtain ⟨⟨x, ex⟩, h3, h2⟩ := bindOk h2
      cases h2
      obtain ⟨x1, x2⟩ := solve_inv o so par hM h3
      have hi : Inv A k R dets { st1 with alg := { st1.alg with tamps := x }, energies := st1.energies ++ [ex], iter := st1.iter + 1 } :=
        hinv.step hU.keep.1 b5 b6 b7 b8 x1
      by_cases hst : st1.stop = true
      · cases fuel with
        | zero => cases h
        | succ fuel =>
          unfold loop at h
          rw [if_pos (by exact hst)] at h
          cases h
          refine ⟨[ex], hi, by simp [hU.keep.2.1], ?_, by simp, by simp, .inr ⟨b1, ?_⟩⟩
          · intro e he
            simp at he; subst he
            exact x2
          · have := b3.1 hst
            simp; omega
      · have hst : st1.stop = false := by simpa using hst
        have hle : st.iter ≤ O.maxiter := by
          by_contra hc
          rw [b3.2 (not_le.1 hc)] at hst; cases hst
        obtain ⟨es, g⟩ := ih _ _ hi hst b1 h
        have gen := g.energies
        simp only at gen
        have gc := g.count
        simp only [hU.keep.2.2.2] at gc
        refine ⟨ex :: es, g.inv, by rw [gen, hU.keep.2.1]; simp, ?_, by simp, by simp only [List.length_cons]; omega, g.stop.imp id fun hh => ⟨hh.1, ?_⟩⟩
        · intro e he
          cases hes : es with
          | nil =>
            subst hes
            simp at he; subst he
            rw [g.start rfl]
            exact x2
          | cons a l =>
            rw [hes, List.getLast?_cons_cons, ← hes] at he
            exact g.value e he
        · have := hh.2
          simp only [hU.keep.2.2.2] at this
          simp only [List.length_cons]; omega

/-- the state before the first macro-iteration -/
noncomputable def startState (A : PqeAlg) (k R : ℕ) (dets : List ℕ) : State where
  alg := { A with pool := poolOf k R dets, saSD := false, tops := [], tamps := [] }
  toPool := dets.zipIdx
  nbody := (A.ref.filter (· ≠ 0)).map fun _ => 0

theorem start_inv (A : PqeAlg) (k R : ℕ) (dets : List ℕ) : Inv A k R dets (startState A k R dets) := by
  refine ⟨rfl, rfl, List.nodup_nil, by simp [startState], rfl, ?_⟩
  unfold startState nbodyOf
  simp only [List.countP_nil, List.map_const', List.length_range]

/-- the propagator -/
theorem propagator (hI : Input A O k R irr) : ∃ C ph, trotterize A.ham ((O.dt : ℂ) * Complex.I) A.trotterNumber = .ok (C, ph) ∧ C.Fits A.nqb ∧ (∀ g ∈ C, ApiGate g ∧ ExactGate g) ∧
    ∀ Φ : St, TrotterState A.ham A.trotterNumber (-O.dt) Φ (ph • C.op Φ) := by
  obtain ⟨C, ph, Us, h1, h2, h3, h4⟩ := trotterize_fits A.nqb A.ham ((O.dt : ℂ) * Complex.I) A.trotterNumber 1 le_rfl (by have := hI.steps; omega)
    (fun t ht => trotterTerm_of (hI.ham t ht).2) (fun t ht g hg => ((hI.ham t ht).2.fits g hg).1) (fun t ht => by
      have := (hI.ham t ht).1
      simp [this])
  refine ⟨C, ph, h1, fun g hg => (h4 g hg).2, fun g hg => (h4 g hg).1, fun Φ => ⟨Us, ?_, ?_⟩⟩
  · refine h2.imp ?_
    intro t U h
    convert! h using 3
    push_cast; ring
  · rw [← h3]; rfl

theorem run_eq (hI : Input A O k R irr) {eiH : Circuit} {ph : ℂ} (hE : trotterize A.ham ((O.dt : ℂ) * Complex.I) A.trotterNumber = .ok (eiH, ph)) (o : DescSort) (so : SortOracle)
    (par : Option Schedule) (X : Ext) (irrep fuel : ℕ) : run o so par X O true irr irrep A fuel = (do
      let st ← loop o so par X O eiH fuel (startState A k R (targets k R irr irrep O.rank))
      let e ← (st.energies.getLast?).elim (.error .indexError) pure
      pure (st, e)) := by
  unfold run
  rw [if_neg (by simp), hE, except_ok_bind]
  simp only
  have hp := (C86_pool o k A.ref irr hI.occ hI.len hI.small hI.irreps irrep O.rank R hI.isRef).1 hI.rank
  have hp' : buildPool o A.nqb A.ref irr irrep O.rank = .ok { elems := poolOf k R (targets k R irr irrep O.rank), toPool := (targets k R irr irrep O.rank).zipIdx } := by
    rw [hI.size]; exact hp
  rw [hp', except_ok_bind]
  rfl

/-- C88: the result of a run with exact residuals.  The energy returned is the last of the energies and the energy of the final operators and amplitudes; the ansatz consists of
different pool operators; there are at least one and at most `max(spqe_maxiter, 0) + 1` macro-iterations with a solve, and the run ends before that number only if the
estimate of the residual norm, for the final ansatz and over all operators left out, is below the threshold (or no operators are left and the threshold is 0). -/
theorem C88_run (o : DescSort) (so : SortOracle) (par : Option Schedule) (X : Ext) (hM : MinimizeContract X) (O : Opts) (ho : O.omega = none) (A : PqeAlg) (k R : ℕ) (irr : List ℕ)
    (hI : Input A O k R irr) (irrep fuel : ℕ) (st : State) (E : ℝ) (h : run o so par X O true irr irrep A fuel = .ok (st, E)) :
    st.alg = { A with pool := poolOf k R (targets k R irr irrep O.rank), saSD := false, tops := st.alg.tops, tamps := st.alg.tamps } ∧
    st.alg.tops.Nodup ∧ (∀ m ∈ st.alg.tops, m < (targets k R irr irrep O.rank).length) ∧ st.alg.tamps.length = st.alg.tops.length ∧
    st.nbody = nbodyOf (A.ref.filter (· ≠ 0)).length k R (targets k R irr irrep O.rank) st.alg.tops ∧
    st.energies.getLast? = some E ∧ st.alg.energyFeval o so par st.alg.tamps = .ok E ∧
    1 ≤ st.energies.length ∧ st.energies.length ≤ O.maxiter.toNat + 1 ∧
    ((st.converged = true ∧ ∃ eiH ph, trotterize A.ham ((O.dt : ℂ) * Complex.I) A.trotterNumber = .ok (eiH, ph) ∧ Reached o so O eiH (targets k R irr irrep O.rank) st) ∨
      (st.converged = false ∧ st.energies.length = O.maxiter.toNat + 1)) := by
  obtain ⟨eiH, ph, p1, p2, p3, _⟩ := propagator hI
  rw [run_eq hI p1] at h
  obtain ⟨st1, h1, h⟩ := bindOk h
  obtain ⟨es, g⟩ := loop_outcome o so par X hM ho hI rfl eiH p2 (fun g hg => (p3 g hg).2) fuel _ _ (start_inv A k R _) rfl rfl h1
  have gen : st1.energies = es := g.energies
  cases hl : st1.energies.getLast? with
  | none => rw [hl] at h; cases h
  | some e =>
    rw [hl] at h
    obtain ⟨rfl, rfl⟩ : st1 = st ∧ e = E := by simpa [Option.elim, pure, Except.pure, Bind.bind, Except.bind] using h
    have hne : es ≠ [] := by rintro rfl; rw [gen] at hl; cases hl
    have hone : (startState A k R (targets k R irr irrep O.rank)).iter = 1 := rfl
    have hc := g.count
    have hs := g.stop
    rw [hone, show O.maxiter + 1 - 1 = O.maxiter by ring] at hc hs
    refine ⟨g.inv.same, g.inv.nodup, g.inv.mem, g.inv.len, g.inv.nbody, hl, g.value _ (by rw [← gen]; exact hl), ?_, by rw [gen]; exact hc, ?_⟩
    · rw [gen]; exact List.length_pos_iff.2 hne
    · rw [gen]
      exact hs.imp (fun h => ⟨h.1, eiH, ph, p1, h.2⟩) id

theorem Inv.grown {dets : List ℕ} (h : Inv A k R dets st) : Adapt.Grown { A with pool := poolOf k R dets, saSD := false }.toUccAlg st.alg.toUccAlg := by
  refine ⟨?_, h.len, ?_⟩
  · have := congrArg PqeAlg.toUccAlg h.same
    exact this
  · intro m hm
    have := h.mem m hm
    simpa [poolOf] using this

theorem Inv.energy (hI : Input A O k R irr) {dets : List ℕ} (hdets : dets = targets k R irr irrep O.rank) (h : Inv A k R dets st) (o : DescSort) (so : SortOracle) (ts : List ℝ) :
    ∃ ψ : St, st.alg.energyFeval o so none ts = .ok (energy A.nqb A.ham.op ψ) ∧ OnReg A.nqb ψ ∧ inner A.nqb ψ ψ = inner A.nqb A.reference A.reference ∧
      (ts = [] → ψ = A.reference) := by
  have hx := (start_inv A k R dets)
  subst hdets
  exact Adapt.C85_energy o so { A with pool := poolOf k R (targets k R irr irrep O.rank), saSD := false }.toUccAlg st.alg.toUccAlg (hx.sound hI).excPool rfl hI.standard hI.steps
    ⟨hI.ready.wf, hI.ready.size, hI.ready.prep, hI.ready.ham⟩ h.grown ts

/-- C88: the variational bound.  A lower bound `λ` of the spectrum is a lower bound of the energy, `λ ⟨Φ|Φ⟩ ≤ E`, because `E` is the energy of a state with the norm of the
reference state. -/
theorem C88_bound (o : DescSort) (so : SortOracle) (X : Ext) (hM : MinimizeContract X) (O : Opts) (ho : O.omega = none) (A : PqeAlg) (k R : ℕ) (irr : List ℕ)
    (hI : Input A O k R irr) (irrep fuel : ℕ) (st : State) (E : ℝ) (h : run o so none X O true irr irrep A fuel = .ok (st, E)) (lam : ℝ)
    (hlam : ∀ ψ, OnReg A.nqb ψ → lam * (inner A.nqb ψ ψ).re ≤ energy A.nqb A.ham.op ψ) : lam * (inner A.nqb A.reference A.reference).re ≤ E := by
  obtain ⟨r1, r2, r3, r4, r5, _, r7, _⟩ := C88_run o so none X hM O ho A k R irr hI irrep fuel st E h
  have hx := start_inv A k R (targets k R irr irrep O.rank)
  obtain ⟨ψ, g1, g2, g3, _⟩ := Adapt.C85_energy o so { A with pool := poolOf k R (targets k R irr irrep O.rank), saSD := false }.toUccAlg st.alg.toUccAlg (hx.sound hI).excPool rfl
    hI.standard hI.steps ⟨hI.ready.wf, hI.ready.size, hI.ready.prep, hI.ready.ham⟩
    ⟨congrArg PqeAlg.toUccAlg r1, r4, fun m hm => by have := r3 m hm; simpa [poolOf] using this⟩ st.alg.tamps
  rw [r7] at g1
  have hE := Except.ok.inj g1
  rw [hE]
  have := hlam ψ g2
  rw [g3] at this
  exact this

theorem loop_total (o : DescSort) (so : SortOracle) (X : Ext) (hM : MinimizeContract X) (ho : O.omega = none) (hI : Input A O k R irr) {dets : List ℕ}
    (hdets : dets = targets k R irr irrep O.rank) (hsol : ∀ st, Inv A k R dets st → ∃ r, solveFor o so none X O st.alg st.toPool = .ok r) (eiH : Circuit) (hF : eiH.Fits A.nqb)
    (hX : ∀ g ∈ eiH, ExactGate g) : ∀ (fuel : ℕ) (st : State), Inv A k R dets st → st.stop = false → st.converged = false → (O.maxiter + 1 - st.iter).toNat + 2 ≤ fuel →
      ∃ st', loop o so none X O eiH fuel st = .ok st' := by
  intro fuel
  induction fuel with
  | zero => intro st _ _ _ h; omega
  | succ fuel ih =>
    intro st hinv hs hv hfuel
    obtain ⟨ψ, hE, _⟩ := hinv.energy hI hdets o so st.alg.tamps
    obtain ⟨C, st1, c1, c2, hU⟩ := hinv.update hI hdets o so none eiH hs hv hF hX hE
    unfold loop
    rw [if_neg (by simp [hs])]
    unfold updateAnsatz
    rw [ho]
    simp only
    rw [c2, except_ok_bind]
    rcases hU.outcome with ⟨a1, a2, a3, a4, a5, a6⟩ | ⟨b1, b2, b3, b4, new, b5, b6, b7, b8, b9⟩
    · rw [if_pos a1]; exact ⟨_, rfl⟩
    · rw [if_neg (by simp [b1])]
      have hi0 : Inv A k R dets st1 := by
        have := hinv.step hU.keep.1 b5 b6 b7 b8 (x := st1.alg.tamps) rfl (e := 0) (i := 0)
        exact ⟨this.same, this.dict, this.nodup, this.mem, this.len, this.nbody⟩
      obtain ⟨⟨x, ex⟩, hr⟩ := hsol st1 hi0
      unfold solve
      rw [hr, except_ok_bind]
      simp only [pure, Except.pure, except_ok_bind]
      obtain ⟨x1, x2⟩ := solve_inv o so none hM hr
      have hi : Inv A k R dets { st1 with alg := { st1.alg with tamps := x }, energies := st1.energies ++ [ex], iter := st1.iter + 1 } :=
        hinv.step hU.keep.1 b5 b6 b7 b8 x1
      by_cases hst : st1.stop = true
      · cases fuel with
        | zero => omega
        | succ fuel =>
          unfold loop
          rw [if_pos (by exact hst)]
          exact ⟨_, rfl⟩
      · have hst' : st1.stop = false := by simpa using hst
        have hle : st.iter ≤ O.maxiter := by
          by_contra hc
          exact hst (b3.2 (not_le.1 hc))
        refine ih _ hi hst' b1 ?_
        simp only [hU.keep.2.2.2]
        omega

/-- the norm estimate in the first macro-iteration: the ansatz is empty -/
noncomputable def firstEstimate (A : PqeAlg) (dt : ℝ) (K : Op) (dets : List ℕ) : ℝ :=
  (dets.map fun I => estimate A.nqb K 1 A.reference dt I).sum

theorem start_estimate (hI : Input A O k R irr) (o : DescSort) (so : SortOracle) {dets : List ℕ} (hdets : dets = targets k R irr irrep O.rank) (K : Op) {C : Circuit}
    (hC : (startState A k R dets).alg.ansatzCircuit o so (some []) = .ok C) :
    ((cands dets []).map fun m => estimate A.nqb K C.op A.reference O.dt (dets.getD m 0)).sum = firstEstimate A O.dt K dets := by
  have hinv := start_inv A k R dets
  have hop : C.op = 1 := by
    subst hdets
    obtain ⟨C', h1, _, _, h4⟩ := Adapt.grown_build o so (A := { A with pool := poolOf k R (targets k R irr irrep O.rank), saSD := false }.toUccAlg)
      (B := (startState A k R (targets k R irr irrep O.rank)).alg.toUccAlg) (hinv.sound hI).excPool rfl hI.standard hI.steps hinv.grown []
    unfold UccAlg.buildUvqc at h1
    rw [hC, except_ok_bind] at h1
    simp only [addCircuit_eq, List.nil_append, pure, Except.pure] at h1
    have h1 := Except.ok.inj h1
    have h2 : C = C' := List.append_cancel_left h1
    rw [h2]; exact h4 rfl
  rw [hop]
  unfold firstEstimate cands
  have : (List.range dets.length).filter (fun m => decide (m ∉ ([] : List ℕ))) = List.range dets.length := by simp
  rw [this]
  conv_rhs => rw [← map_getD_range dets, List.map_map]
  rfl

/-- C88: when a run with exact residuals returns.  If the solver always does, then the run returns after at most `max(spqe_maxiter, 0) + 1` solves - unless the estimate already is
converged in the first macro-iteration: then there is no energy to report and the run ends with `IndexError`. -/
theorem C88_returns (o : DescSort) (so : SortOracle) (X : Ext) (hM : MinimizeContract X) (O : Opts) (ho : O.omega = none) (A : PqeAlg) (k R : ℕ) (irr : List ℕ)
    (hI : Input A O k R irr) (irrep : ℕ) (eiH : Circuit) (ph : ℂ) (hE : trotterize A.ham ((O.dt : ℂ) * Complex.I) A.trotterNumber = .ok (eiH, ph)) :
    ((firstEstimate A O.dt eiH.op (targets k R irr irrep O.rank) < O.thresh * O.thresh ∨ (O.thresh = 0 ∧ targets k R irr irrep O.rank = [] ∧ 1 ≤ O.maxiter)) →
      ∀ fuel, 0 < fuel → run o so none X O true irr irrep A fuel = .error .indexError) ∧
    ((O.thresh * O.thresh ≤ firstEstimate A O.dt eiH.op (targets k R irr irrep O.rank) ∧ (targets k R irr irrep O.rank ≠ [] ∨ O.maxiter < 1)) →
      (∀ st, Inv A k R (targets k R irr irrep O.rank) st → ∃ r, solveFor o so none X O st.alg st.toPool = .ok r) →
      ∀ fuel, O.maxiter.toNat + 2 ≤ fuel → ∃ r, run o so none X O true irr irrep A fuel = .ok r) := by
  obtain ⟨eiH', ph', p1, p2, p3, _⟩ := propagator hI
  rw [hE] at p1; cases p1
  have hXe := fun g hg => (p3 g hg).2
  have hinv := start_inv A k R (targets k R irr irrep O.rank)
  obtain ⟨ψ, hEn, _⟩ := hinv.energy hI rfl o so (startState A k R (targets k R irr irrep O.rank)).alg.tamps
  obtain ⟨C, st1, c1, c2, hU⟩ := hinv.update hI rfl o so none eiH rfl rfl p2 hXe hEn
  have hsum := start_estimate hI o so rfl eiH.op c1
  have hnorm : st1.resNorm = firstEstimate A O.dt eiH.op (targets k R irr irrep O.rank) := hU.norm.trans hsum
  have hcn : cands (targets k R irr irrep O.rank) [] = [] ↔ targets k R irr irrep O.rank = [] := by
    unfold cands; simp
  have hloop : ∀ fuel, loop o so none X O eiH (fuel + 1) (startState A k R (targets k R irr irrep O.rank)) = (do
      if st1.converged then pure st1
      else do
        let st ← solve o so none X O st1
        loop o so none X O eiH fuel { st with iter := st.iter + 1 }) := by
    intro fuel
    conv_lhs => unfold loop
    rw [if_neg (by simp [startState])]
    unfold updateAnsatz
    rw [ho]
    simp only
    rw [c2, except_ok_bind]
  constructor
  · intro hc fuel hfuel
    obtain ⟨fuel, rfl⟩ : ∃ f, fuel = f + 1 := ⟨fuel - 1, by omega⟩
    rw [run_eq hI hE, hloop]
    rcases hU.outcome with ⟨a1, a2, a3, a4, a5, a6⟩ | ⟨b1, b2, b3, b4, _⟩
    · rw [if_pos a1]
      have hen : st1.energies = [] := hU.keep.2.1
      simp only [pure, Except.pure, except_ok_bind, hen]
      rfl
    · exfalso
      rw [hnorm] at b2
      rcases hc with hc | ⟨_, hc, hm⟩
      · linarith
      · exact b4 hm (hcn.2 hc)
  · rintro ⟨hc1, hc2⟩ hsol fuel hfuel
    obtain ⟨st', hl⟩ := loop_total o so X hM ho hI rfl hsol eiH p2 hXe fuel _ hinv rfl rfl (by show (O.maxiter + 1 - 1).toNat + 2 ≤ fuel; omega)
    obtain ⟨es, g⟩ := loop_outcome o so none X hM ho hI rfl eiH p2 hXe fuel _ _ hinv rfl rfl hl
    rw [run_eq hI hE, hl, except_ok_bind]
    have gen : st'.energies = es := g.energies
    have hne : es ≠ [] := by
      rintro rfl
      have hs := g.start rfl
      rcases g.stop with ⟨_, C', k1, k2, k3⟩ | ⟨_, h0⟩
      · rw [hs] at k1 k2 k3
        have k2' : st'.resNorm = firstEstimate A O.dt eiH.op (targets k R irr irrep O.rank) := k2.trans (start_estimate hI o so rfl eiH.op k1)
        have hcan : (startState A k R (targets k R irr irrep O.rank)).alg.tops = [] := rfl
        rw [hcan] at k3
        rcases k3 with k3 | ⟨t0, k3⟩
        · rw [k2'] at k3; linarith
        · rcases hc2 with hc2 | hc2
          · exact hc2 (hcn.1 k3)
          · -- `maxiter < 1`: the first update is not converged
            obtain ⟨f, rfl⟩ : ∃ f, fuel = f + 1 := ⟨fuel - 1, by omega⟩
            rw [hloop] at hl
            rcases hU.outcome with ⟨a1, a2, a3, a4, a5, a6⟩ | ⟨b1, b2, b3, b4, _⟩
            · rcases a6 with a6 | ⟨_, _, a6⟩
              · rw [hnorm] at a6; linarith
              · have : (startState A k R (targets k R irr irrep O.rank)).iter = 1 := rfl
                omega
            · rw [if_neg (by simp [b1])] at hl
              obtain ⟨st2, hl2, hl⟩ := bindOk hl
              unfold solve at hl2
              obtain ⟨⟨x, ex⟩, _, hl2⟩ := bindOk hl2
              cases hl2
              obtain ⟨f, rfl⟩ : ∃ g, f = g + 1 := ⟨f - 1, by omega⟩
              unfold loop at hl
              rw [if_pos (by exact b3.2 (by show O.maxiter < 1; exact hc2))] at hl
              have hh := Except.ok.inj hl
              rw [← hh] at gen
              simp at gen
      · simp at h0
    cases hl : st'.energies.getLast? with
    | none => rw [List.getLast?_eq_none_iff] at hl; exact absurd (gen.symm.trans hl) hne
    | some e => exact ⟨_, rfl⟩

end Spqe
end QF
