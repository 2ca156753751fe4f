import Verif.Props.SaGradient
import Verif.Props.UccCompact

/-!
C70, C71 for spin-adapted pools with `compact_excitations = True`.
-/
namespace QF

open SQOperator (DescSort jwTransform)
open QubitOperator (SortOracle)

/-- the compact circuit that is built from the swapped index lists with the opposite angle -/
theorem compact_swapped {n : ℕ} {c a : List ℕ} (h : Excit n c a) (hd : (c ++ a).Nodup) (hne : c ≠ []) (q : Bool) (t : ℝ) :
    ∃ C, compactExcitationCircuit ((-t : ℝ) : ℂ) a c q = .ok C ∧ (∀ g ∈ C, ApiGate g) ∧ C.Fits n ∧
      IsExp ((t : ℂ) • kappa q c a) C.op ∧ (CompactResolved (c, a) t → ∀ g ∈ C, ExactGate g) := by
  have hb : ∀ p ∈ a ++ c, p < n := fun p hp => (List.mem_append.1 hp).elim (h.bound_a p) (h.bound_c p)
  have hd' : (a ++ c).Nodup := (List.perm_append_comm.nodup_iff).1 hd
  have hna : a ≠ [] := by rintro rfl; exact hne (List.length_eq_zero_iff.1 (by simpa using h.rank))
  obtain ⟨C, e1, e2, e3, e4⟩ := C61_sorted (-t) a c hd' h.rank.symm hna q (.inl ⟨h.desc_a, h.desc_c⟩)
  refine ⟨C, e1, e2, e3 n hb, ?_, fun hr g hg => (compact_exact hd' e1 hna (compactResolved_neg_swap h.rank hr) g hg).2⟩
  convert! e4 using 1
  rw [kappa_swap q h]
  push_cast
  module

/-- a run of compact circuits over the pieces of one spin-adapted element -/
theorem sa_compact_fold {n : ℕ} {q : Bool} (t : ℝ) : ∀ (ys : List (ℝ × List ℕ × List ℕ)) (Ws : List (ℝ → Op)),
    List.Forall₂ (fun (y : ℝ × List ℕ × List ℕ) W => IsFlow (kappa q y.2.1 y.2.2) W) ys Ws →
    (∀ y ∈ ys, Excit n y.2.1 y.2.2 ∧ (y.2.1 ++ y.2.2).Nodup ∧ y.2.1 ≠ []) → ∀ U₀ : Circuit,
    ∃ C, ys.foldlM (fun (U : Circuit) y => (do
        let c ← compactExcitationCircuit ((-(t * y.1) : ℝ) : ℂ) y.2.2 y.2.1 q
        pure (U.addCircuit c) : Except Exc Circuit)) U₀ = .ok (U₀ ++ C) ∧
      Circuit.op C = applyInOrder (List.zipWith (fun y W => W (t * y.1)) ys Ws) ∧ (∀ g ∈ C, ApiGate g) ∧ Circuit.Fits n C ∧
      ((∀ y ∈ ys, CompactResolved y.2 (t * y.1)) → ∀ g ∈ C, ExactGate g) := by
  intro ys Ws hW
  induction hW with
  | nil => intro _ U₀; exact ⟨[], by simp [pure, Except.pure], rfl, by simp, by simp [Circuit.Fits], by simp⟩
  | @cons y W ys Ws h _ ih =>
    intro hx U₀
    obtain ⟨he, hd, hne⟩ := hx y (by simp)
    obtain ⟨C, c1, c2, c3, c4, c5⟩ := compact_swapped he hd hne q (t * y.1)
    obtain ⟨C', f1, f2, f3, f4, f5⟩ := ih (fun z hz => hx z (by simp [hz])) (U₀ ++ C)
    refine ⟨C ++ C', ?_, ?_, ?_, ?_, ?_⟩
    · rw [List.foldlM_cons, c1]
      simp only [except_ok_bind, pure, Except.pure, addCircuit_eq] at f1 ⊢
      rw [f1, List.append_assoc]
    · rw [Circuit.op_append, f2, List.zipWith_cons_cons, applyInOrder, c4.unique (h _)]
    · intro g hg; rcases List.mem_append.1 hg with hg | hg; exacts [c2 g hg, f3 g hg]
    · intro g hg; rcases List.mem_append.1 hg with hg | hg; exacts [c3 g hg, f4 g hg]
    · intro hr g hg
      rcases List.mem_append.1 hg with hg | hg
      · exact c5 (hr y (by simp)) g hg
      · exact f5 (fun z hz => hr z (by simp [hz])) g hg

/-- C70, spin-adapted pools with compact circuits: the circuit is exactly `Π_μ Π_pieces exp(t_μ w κ)` for all amplitudes and every Trotter number; the
simulator applies it exactly if the amplitudes are resolved. -/
theorem C70_sa_compact (o : DescSort) (so : SortOracle) (A : UccAlg) (yss : List (List (ℝ × List ℕ × List ℕ))) (h : A.SelectsSa yss) (hs : A.saSD = true)
    (hc : A.compact = true) (hd : ∀ ys ∈ yss, ∀ y ∈ ys, (y.2.1 ++ y.2.2).Nodup ∧ y.2.1 ≠ []) (ts : List ℝ) (Vs : List (ℝ → Op))
    (hV : SaFlows A.qubitExc yss Vs) :
    ∃ C, A.ansatzCircuit o so (some ts) = .ok C ∧ C.op = uccOp Vs ts ∧ (∀ g ∈ C, ApiGate g) ∧ C.Fits A.nqb ∧
      ((∀ p ∈ saFactors ts yss, CompactResolved p.2 p.1) → ∀ g ∈ C, ExactGate g) := by
  have hx : ∀ ys ∈ yss, ∀ y ∈ ys, Excit A.nqb y.2.1 y.2.2 ∧ (y.2.1 ++ y.2.2).Nodup ∧ y.2.1 ≠ [] := by
    intro ys hys y hy
    obtain ⟨i, _, z, e, _, he⟩ := forall2_mem_right h hys
    exact ⟨(he.exc y hy).1, hd ys hys y hy⟩
  have key : ∀ (yss : List (List (ℝ × List ℕ × List ℕ))) (Vs : List (ℝ → Op)), SaFlows A.qubitExc yss Vs →
      (∀ ys ∈ yss, ∀ y ∈ ys, Excit A.nqb y.2.1 y.2.2 ∧ (y.2.1 ++ y.2.2).Nodup ∧ y.2.1 ≠ []) → ∀ (ts : List ℝ) (U : Circuit),
      ∃ C, ((List.zip ts yss).flatMap fun p => p.2.map fun y => ((p.1 : ℂ), wTerms y.1 y.2.1 y.2.2)).foldlM (fun U t => (do
        let x ← pyIndex t.2 1
        let c ← compactExcitationCircuit (t.1 * x.1) x.2.1 x.2.2 A.qubitExc
        pure (U.addCircuit c) : Except Exc Circuit)) U = .ok (U ++ C) ∧ Circuit.op C = uccOp Vs ts ∧ (∀ g ∈ C, ApiGate g) ∧ Circuit.Fits A.nqb C ∧
        ((∀ p ∈ saFactors ts yss, CompactResolved p.2 p.1) → ∀ g ∈ C, ExactGate g) := by
    intro yss Vs hV
    unfold SaFlows at hV
    induction hV with
    | nil => intro _ ts U; refine ⟨[], by simp [pure, Except.pure], by rw [uccOp_nil]; rfl, by simp, by simp [Circuit.Fits], by simp⟩
    | @cons ys V yss Vs hV _ ih =>
      intro hx ts U
      cases ts with
      | nil => exact ⟨[], by simp [pure, Except.pure], rfl, by simp, by simp [Circuit.Fits], by simp⟩
      | cons t ts =>
        obtain ⟨Ws, hW, hV⟩ := hV
        obtain ⟨C, c1, c2, c3, c4, c5⟩ := sa_compact_fold (n := A.nqb) t ys Ws hW (hx ys (by simp)) U
        obtain ⟨C', f1, f2, f3, f4, f5⟩ := ih (fun x hx' => hx x (by simp [hx'])) ts (U ++ C)
        refine ⟨C ++ C', ?_, ?_, ?_, ?_, ?_⟩
        · rw [List.zip_cons_cons, List.flatMap_cons, List.foldlM_append, List.foldlM_map]
          have e : (fun (U : Circuit) (y : ℝ × List ℕ × List ℕ) => (do
              let x ← pyIndex (wTerms y.1 y.2.1 y.2.2) 1
              let c ← compactExcitationCircuit ((t : ℂ) * x.1) x.2.1 x.2.2 A.qubitExc
              pure (U.addCircuit c) : Except Exc Circuit)) = (fun (U : Circuit) y => (do
              let c ← compactExcitationCircuit ((-(t * y.1) : ℝ) : ℂ) y.2.2 y.2.1 A.qubitExc
              pure (U.addCircuit c) : Except Exc Circuit)) := by
            funext U y
            have : pyIndex (wTerms y.1 y.2.1 y.2.2) 1 = .ok (-(y.1 : ℂ), y.2.2, y.2.1) := rfl
            rw [this, except_ok_bind]
            push_cast
            rw [mul_neg]
          simp only [] at e ⊢
          rw [e, c1, except_ok_bind, f1, List.append_assoc]
        · rw [Circuit.op_append, f2, uccOp_cons, c2, hV]
        · intro g hg; rcases List.mem_append.1 hg with hg | hg; exacts [c3 g hg, f3 g hg]
        · intro g hg; rcases List.mem_append.1 hg with hg | hg; exacts [c4 g hg, f4 g hg]
        · intro hr g hg
          have e : saFactors (t :: ts) (ys :: yss) = (ys.map fun y => (t * y.1, y.2)) ++ saFactors ts yss := by simp [saFactors]
          rw [e] at hr
          rcases List.mem_append.1 hg with hg | hg
          · exact c5 (fun y hy => hr (t * y.1, y.2) (List.mem_append_left _ (List.mem_map.2 ⟨y, hy, rfl⟩))) g hg
          · exact f5 (fun p hp => hr p (List.mem_append_right _ hp)) g hg
  obtain ⟨C, e1, e2, e3, e4, e5⟩ := key yss Vs hV hx ts []
  refine ⟨C, ?_, e2, e3, e4, e5⟩
  unfold UccAlg.ansatzCircuit UccAlg.ansatzWith
  rw [Option.getD_some, saTempPool h hs, except_ok_bind, hc, if_pos rfl, e1, List.nil_append]

/-- C70, spin-adapted pools with compact circuits: `energy_feval(params)` is the energy of the state `Π_μ Π_pieces exp(t_μ w κ) |Φ⟩`, in both builds. -/
theorem C70_sa_compact_energy (o : DescSort) (so : SortOracle) (A : UccAlg) (yss : List (List (ℝ × List ℕ × List ℕ))) (h : A.SelectsSa yss) (hs : A.saSD = true)
    (hc : A.compact = true) (hd : ∀ ys ∈ yss, ∀ y ∈ ys, (y.2.1 ++ y.2.2).Nodup ∧ y.2.1 ≠ []) (ts : List ℝ)
    (hr : ∀ p ∈ saFactors ts yss, CompactResolved p.2 p.1) (Vs : List (ℝ → Op)) (hV : SaFlows A.qubitExc yss Vs) (hR : A.Ready) :
    A.energyFeval o so none ts = .ok (uccEnergy A.nqb A.ham.op A.reference Vs ts) ∧
      ∀ sch, 1 ≤ A.nqb → (∀ t ∈ A.ham, t.2.PauliString A.nqb ∧ Even t.2.numY) →
        A.energyFeval o so (some sch) ts = .ok (uccEnergy A.nqb A.ham.op A.reference Vs ts) := by
  obtain ⟨C, c1, c2, _, c4, c5⟩ := C70_sa_compact o so A yss h hs hc hd ts Vs hV
  obtain ⟨U, q, e1, e2, w, n, p⟩ := build_of_ansatz o so A ts hR c1 c2 (c5 hr) c4
  refine ⟨?_, fun sch h0 hH => ?_⟩
  · obtain ⟨q', e3, _⟩ := C29_direct_op q A.ham w (by rw [n]; exact hR.ham)
    unfold UccAlg.energyFeval UccAlg.measureEnergy
    rw [e1, except_ok_bind, Option.getD_some, e2, except_ok_bind, e3, except_ok_bind]
    simp only [pure, Except.pure, uccEnergy, energy, n, p]
  · obtain ⟨q', _, e3⟩ := C29_builds_agree_partial q sch A.ham w (by omega) (by rw [n]; exact hH)
    unfold UccAlg.energyFeval UccAlg.measureEnergy
    rw [e1, except_ok_bind, Option.getD_some, e2, except_ok_bind, e3, except_ok_bind]
    simp only [pure, Except.pure, uccEnergy, energy, n, p]

theorem sa_undoes_compact (o : DescSort) {A : UccAlg} {yss : List (List (ℝ × List ℕ × List ℕ))} (h : A.SelectsGood yss) (hs : A.saSD = true) (hc : A.compact = true)
    (hne : ∀ ys ∈ yss, ∀ y ∈ ys, y.2.1 ≠ []) {Vs : List (ℝ → Op)} (hV : SaFlows A.qubitExc yss Vs) (ts : List ℝ)
    (hr : ∀ p ∈ saFactors ts yss, CompactResolved p.2 p.1) : A.Undoes o Vs ts := by
  intro mu hv ht Q _
  unfold UccAlg.SelectsGood at h
  unfold SaFlows at hV
  have l1 := h.length_eq
  have l2 := hV.length_eq
  obtain ⟨z, e, h3, h4⟩ := List.Forall₂.get h (i := mu + 1) (by omega) (by omega)
  have h5 := List.Forall₂.get hV (i := mu + 1) (by omega) hv
  have h1 : A.tops[mu + 1]? = some A.tops[mu + 1] := List.getElem?_eq_getElem (by omega)
  have hmy : yss[mu + 1] ∈ yss := List.getElem_mem _
  simp only [List.get_eq_getElem] at h3 h4 h5
  obtain ⟨Ws, hW, hVe⟩ := h5
  obtain ⟨C, c1, c2, _, c4, c5⟩ := sa_compact_fold (n := A.nqb) (q := A.qubitExc) (-ts[mu + 1]) _ Ws hW
    (fun y hy => ⟨(h4.exc y hy).1, h4.disjoint y hy, hne _ hmy y hy⟩) []
  refine ⟨C, ?_, by rw [c2, hVe], c5 ?_, c4⟩
  · unfold UccAlg.undoCircuit UccAlg.poolAt
    rw [pyIndex_ok h1, except_ok_bind, h3, except_ok_bind, hc, hs]
    obtain ⟨rest, e1, hp⟩ := h4.half
    have hl := hp.length_eq
    rw [List.length_map] at hl
    simp only [if_true]
    rw [e1, List.length_append, List.length_map, hl, show ∀ k : ℕ, (k + k) / 2 = k by omega, List.take_left' (by simp), List.foldlM_map]
    rw [List.nil_append] at c1
    rw [← c1]
    congr 1
    funext U y
    push_cast
    rw [neg_mul, neg_neg]
  · intro y hy
    rw [neg_mul]
    refine compactResolved_neg (hr (ts[mu + 1] * y.1, y.2) ?_)
    refine List.mem_flatMap.2 ⟨(ts[mu + 1], yss[mu + 1]), ?_, List.mem_map.2 ⟨y, hy, rfl⟩⟩
    exact List.mem_iff_getElem.2 ⟨mu + 1, by simp; omega, by simp⟩

/-- C71, spin-adapted pools with compact circuits: if the pieces of every operator picked commute with each other, `measure_gradient` is the gradient of the
energy that `energy_feval` computes, for every Trotter number. -/
theorem C71_sa_compact (o : DescSort) (so : SortOracle) (A : UccAlg) (yss : List (List (ℝ × List ℕ × List ℕ))) (h : A.SelectsGood yss) (hs : A.saSD = true)
    (hc : A.compact = true) (hz : A.UnitCoeffs) (hne : ∀ ys ∈ yss, ∀ y ∈ ys, y.2.1 ≠ [])
    (hcomm : ∀ ys ∈ yss, ∀ y ∈ ys, ∀ z ∈ ys, Commute (kappa A.qubitExc y.2.1 y.2.2) (kappa A.qubitExc z.2.1 z.2.2))
    (ts : List ℝ) (hr : ∀ p ∈ saFactors ts yss, CompactResolved p.2 p.1)
    (Vs : List (ℝ → Op)) (hV : SaFlows A.qubitExc yss Vs) (hR : A.Ready) (hH : HermitianOn A.nqb A.ham.op)
    (h1 : ts.length = A.tops.length) (h2 : A.tamps.length = A.tops.length) (h3 : A.tops ≠ []) :
    A.energyFeval o so none ts = .ok (uccEnergy A.nqb A.ham.op A.reference Vs ts) ∧
    ∃ g, A.measureGradient o so (some ts) = .ok g ∧ g.length = ts.length ∧
      ∀ j (hj : j < ts.length) (hg : j < g.length), HasDerivAt (fun s => uccEnergy A.nqb A.ham.op A.reference Vs (ts.set j s)) g[j] ts[j] := by
  have hd : ∀ ys ∈ yss, ∀ y ∈ ys, (y.2.1 ++ y.2.2).Nodup ∧ y.2.1 ≠ [] := by
    intro ys hys y hy
    obtain ⟨i, _, z, e, _, he⟩ := forall2_mem_right h hys
    exact ⟨he.disjoint y hy, hne ys hys y hy⟩
  refine ⟨(C70_sa_compact_energy o so A yss h.sa hs hc hd ts hr Vs hV hR).1, ?_⟩
  obtain ⟨C, c1, c2, _, c4, c5⟩ := C70_sa_compact o so A yss h.sa hs hc hd ts Vs hV
  obtain ⟨U, psi, e1, e2, w, n, p⟩ := build_of_ansatz o so A ts hR c1 c2 (c5 hr) c4
  have l1 := List.Forall₂.length_eq h
  have l2 := List.Forall₂.length_eq hV
  refine gradient_of_ansatz o so A ts Vs ?_ (by omega) hR hH h1 h2 h3 (sa_undoes_compact o h hs hc hne hV ts hr) e1 e2 w n p
  intro mu hv
  obtain ⟨i, ys, z, e, g1, g2, g3, g4, g5⟩ := selectsGood_get h hV hv
  obtain ⟨Q, q1, q2⟩ := sa_jw o g4 A.qubitExc
  exact ⟨Q, saGen A.qubitExc ys, sa_gradK o hz g1 g3 q1, q2, (saFlow_flow ys _ (fun y hy => ⟨(g4.exc y hy).1, g4.disjoint y hy⟩) (hcomm ys g2) g5).1⟩

end QF
