import Verif.Props.UccAnsatz
import Verif.Props.CompactMain
import Verif.Lemmas.CompactExact
import Verif.Props.UccGradient
import Mathlib.Analysis.SpecialFunctions.Trigonometric.Bounds

/-!
C70 with `compact_excitations = True`.
-/
namespace QF

open SQOperator (DescSort jwTransform)
open QubitOperator (SortOracle)

theorem kappa_swap (q : Bool) {n : ℕ} {c a : List ℕ} (h : Excit n c a) : kappa q a c = -kappa q c a := by
  cases q
  · rw [kappa, kappa, if_neg (by decide), if_neg (by decide), fermiString_reverse (sdesc_nodup h.desc_a) (sdesc_nodup h.desc_c) h.rank.symm,
      fermiString_reverse (sdesc_nodup h.desc_c) (sdesc_nodup h.desc_a) h.rank]
    module
  · rw [kappa, kappa, if_pos rfl, if_pos rfl, qubitString_reverse, qubitString_reverse]
    module

theorem compactResolved_neg_swap {c a : List ℕ} (hl : c.length = a.length) {t : ℝ} (h : CompactResolved (c, a) t) : CompactResolved (a, c) (-t) := by
  unfold CompactResolved at h ⊢
  simp only [← hl, neg_div, Real.cos_neg, Real.sin_neg, abs_neg, neg_eq_zero]
  exact h

theorem compactResolved_neg {x : List ℕ × List ℕ} {t : ℝ} (h : CompactResolved x t) : CompactResolved x (-t) := by
  unfold CompactResolved at h ⊢
  simp only [neg_div, Real.cos_neg, Real.sin_neg, abs_neg, neg_eq_zero]
  exact h

/-- the circuit of one factor in compact mode -/
theorem compact_factor {n : ℕ} {c a : List ℕ} (h : Excit n c a) (hd : (c ++ a).Nodup) (hne : c ≠ []) (q : Bool) (t : ℝ) :
    ∃ x C, pyIndex (excTerms c a) 1 = .ok x ∧ compactExcitationCircuit ((t : ℂ) * x.1) x.2.1 x.2.2 q = .ok C ∧ (∀ g ∈ C, ApiGate g) ∧ C.Fits n ∧
      IsExp ((t : ℂ) • kappa q c a) C.op ∧ (CompactResolved (c, a) t → ∀ g ∈ C, ExactGate g) := by
  have hb : ∀ p ∈ c ++ a, p < n := fun p hp => (List.mem_append.1 hp).elim (h.bound_c p) (h.bound_a p)
  have hcase : excTerms c a = [(-1, a, c), (1, c, a)] ∨ excTerms c a = [(1, c, a), (-1, a, c)] := by
    unfold excTerms; split <;> simp
  rcases hcase with e | e
  · obtain ⟨C, e1, e2, e3, e4⟩ := C61_sorted t c a hd h.rank hne q (.inl ⟨h.desc_c, h.desc_a⟩)
    refine ⟨(1, c, a), C, by rw [e]; rfl, by simpa using e1, e2, e3 n hb, e4, fun hr g hg => (compact_exact hd e1 hne hr g hg).2⟩
  · have hd' : (a ++ c).Nodup := (List.perm_append_comm.nodup_iff).1 hd
    have hna : a ≠ [] := by rintro rfl; exact hne (List.length_eq_zero_iff.1 (by simpa using h.rank))
    obtain ⟨C, e1, e2, e3, e4⟩ := C61_sorted (-t) a c hd' h.rank.symm hna q (.inl ⟨h.desc_a, h.desc_c⟩)
    refine ⟨(-1, a, c), C, by rw [e]; rfl, ?_, e2, e3 n (fun p hp => hb p (by simp at hp ⊢; tauto)), ?_,
      fun hr g hg => (compact_exact hd' e1 hna (compactResolved_neg_swap h.rank hr) g hg).2⟩
    · simpa using e1
    · convert! e4 using 1
      rw [kappa_swap q h]
      push_cast
      module

/-- C70, compact circuits: for excitations without an index that is both created and annihilated, the circuit is exactly the
disentangled UCC operator for all amplitudes (the Trotter number plays no role); the simulator applies it exactly if the amplitudes are resolved. -/
theorem C70_compact (o : DescSort) (so : SortOracle) (A : UccAlg) (xs : List (List ℕ × List ℕ)) (h : A.Selects xs) (hs : A.saSD = false)
    (hc : A.compact = true) (hd : ∀ x ∈ xs, (x.1 ++ x.2).Nodup ∧ x.1 ≠ []) (ts : List ℝ) (Vs : List (ℝ → Op)) (hV : Flows A.qubitExc xs Vs) :
    ∃ C, A.ansatzCircuit o so (some ts) = .ok C ∧ C.op = uccOp Vs ts ∧ (∀ g ∈ C, ApiGate g) ∧ C.Fits A.nqb ∧
      ((∀ p ∈ List.zip ts xs, CompactResolved p.2 p.1) → ∀ g ∈ C, ExactGate g) := by
  have hx := selects_sound h
  have key : ∀ (xs : List (List ℕ × List ℕ)) (Vs : List (ℝ → Op)), Flows A.qubitExc xs Vs → (∀ x ∈ xs, Excit A.nqb x.1 x.2 ∧ x.1.length ≤ 19) →
      (∀ x ∈ xs, (x.1 ++ x.2).Nodup ∧ x.1 ≠ []) → ∀ (ts : List ℝ) (U : Circuit),
      ∃ C, (List.zipWith (fun (t : ℝ) (x : List ℕ × List ℕ) => ((t : ℂ), excTerms x.1 x.2)) ts xs).foldlM (fun U t => (do
        let x ← pyIndex t.2 1
        let c ← compactExcitationCircuit (t.1 * x.1) x.2.1 x.2.2 A.qubitExc
        pure (U.addCircuit c) : Except Exc Circuit)) U = .ok (U ++ C) ∧ Circuit.op C = uccOp Vs ts ∧ (∀ g ∈ C, ApiGate g) ∧ Circuit.Fits A.nqb C ∧
        ((∀ p ∈ List.zip ts xs, CompactResolved p.2 p.1) → ∀ g ∈ C, ExactGate g) := by
    intro xs Vs hV
    unfold Flows at hV
    induction hV with
    | nil => intro _ _ ts U; refine ⟨[], by simp [pure, Except.pure], by rw [uccOp_nil]; rfl, by simp, by simp [Circuit.Fits], by simp⟩
    | @cons x V xs Vs hV _ ih =>
      intro hx hd ts U
      cases ts with
      | nil => exact ⟨[], by simp [pure, Except.pure], rfl, by simp, by simp [Circuit.Fits], by simp⟩
      | cons t ts =>
        obtain ⟨y, C, e1, e2, e3, e4, e5, e6⟩ := compact_factor (hx x (by simp)).1 (hd x (by simp)).1 (hd x (by simp)).2 A.qubitExc t
        obtain ⟨C', f1, f2, f3, f4, f5⟩ := ih (fun x hx' => hx x (by simp [hx'])) (fun x hx' => hd x (by simp [hx'])) ts (U ++ C)
        refine ⟨C ++ C', ?_, ?_, ?_, ?_, ?_⟩
        · rw [List.zipWith_cons_cons, List.foldlM_cons]
          simp only [e1, except_ok_bind, e2, pure, Except.pure, addCircuit_eq]
          simp only [pure, Except.pure, addCircuit_eq] at f1
          rw [f1, List.append_assoc]
        · rw [Circuit.op_append, f2, uccOp_cons, e5.unique (hV t)]
        · intro g hg; rcases List.mem_append.1 hg with hg | hg; exacts [e3 g hg, f3 g hg]
        · intro g hg; rcases List.mem_append.1 hg with hg | hg; exacts [e4 g hg, f4 g hg]
        · intro hr g hg
          rcases List.mem_append.1 hg with hg | hg
          · exact e6 (hr (t, x) (by simp)) g hg
          · exact f5 (fun p hp => hr p (by simp [hp])) g hg
  obtain ⟨C, e1, e2, e3, e4, e5⟩ := key xs Vs hV hx hd ts []
  refine ⟨C, ?_, e2, e3, e4, e5⟩
  unfold UccAlg.ansatzCircuit UccAlg.ansatzWith
  rw [Option.getD_some, tempPool_eq h hs, except_ok_bind, hc, if_pos rfl, e1, List.nil_append]

/-- C70, compact circuits: `energy_feval(params)` is the energy of the disentangled UCC state, for every Trotter number. -/
theorem C70_compact_energy (o : DescSort) (so : SortOracle) (A : UccAlg) (xs : List (List ℕ × List ℕ)) (h : A.Selects xs) (hs : A.saSD = false)
    (hc : A.compact = true) (hd : ∀ x ∈ xs, (x.1 ++ x.2).Nodup ∧ x.1 ≠ []) (ts : List ℝ) (hr : ∀ p ∈ List.zip ts xs, CompactResolved p.2 p.1)
    (Vs : List (ℝ → Op)) (hV : Flows A.qubitExc xs Vs) (hR : A.Ready) :
    A.energyFeval o so none ts = .ok (uccEnergy A.nqb A.ham.op A.reference Vs ts) ∧
      ∀ sch, 1 ≤ A.nqb → (∀ t ∈ A.ham, t.2.PauliString A.nqb ∧ Even t.2.numY) →
        A.energyFeval o so (some sch) ts = .ok (uccEnergy A.nqb A.ham.op A.reference Vs ts) := by
  obtain ⟨C, c1, c2, _, c4, c5⟩ := C70_compact o so A xs h hs hc hd ts Vs hV
  obtain ⟨U, q, e1, e2, w, n, p⟩ := build_of_ansatz o so A ts hR c1 c2 (c5 hr) c4
  refine ⟨?_, fun sch h0 hH => ?_⟩
  · obtain ⟨q', e3, _⟩ := C29_direct_op q A.ham w (by rw [n]; exact hR.ham)
    unfold UccAlg.energyFeval UccAlg.measureEnergy
    rw [e1, except_ok_bind, Option.getD_some, e2, except_ok_bind, e3, except_ok_bind]
    simp only [pure, Except.pure, uccEnergy, energy, n, p]
  · obtain ⟨q', _, e3⟩ := C29_builds_agree_partial q sch A.ham w (by omega) (by rw [n]; exact hH)
    unfold UccAlg.energyFeval UccAlg.measureEnergy
    rw [e1, except_ok_bind, Option.getD_some, e2, except_ok_bind, e3, except_ok_bind]
    simp only [pure, Except.pure, uccEnergy, energy, n, p]

theorem undoes_compact (o : DescSort) {A : UccAlg} {xs : List (List ℕ × List ℕ)} (h : A.Selects xs) (hsa : A.saSD = false) (hc : A.compact = true)
    (hd : ∀ x ∈ xs, (x.1 ++ x.2).Nodup ∧ x.1 ≠ []) {Vs : List (ℝ → Op)} (hV : Flows A.qubitExc xs Vs) (ts : List ℝ)
    (hr : ∀ p ∈ List.zip ts xs, CompactResolved p.2 p.1) : A.Undoes o Vs ts := by
  intro mu hv ht Q _
  have hlx : A.tops.length = Vs.length := by
    have h1 := List.Forall₂.length_eq h
    have h2 := List.Forall₂.length_eq hV
    omega
  obtain ⟨i, x, z, h1, h2, h3, h4, h5⟩ := selects_get h (mu := mu + 1) (by omega)
  have hx : x ∈ xs := List.mem_of_getElem? h2
  obtain ⟨y, C, e1, e2, _, e4, e5, e6⟩ := compact_factor h4 (hd x hx).1 (hd x hx).2 A.qubitExc (-ts[mu + 1])
  obtain ⟨_, hF⟩ := flows_get hV h2
  have hrx : CompactResolved (x.1, x.2) (-ts[mu + 1]) := by
    refine compactResolved_neg (hr (ts[mu + 1], x) ?_)
    obtain ⟨hm, e⟩ := List.getElem?_eq_some_iff.1 h2
    exact List.mem_iff_getElem.2 ⟨mu + 1, by simp; omega, by simp [e]⟩
  refine ⟨C, ?_, e5.unique (hF _), e6 hrx, e4⟩
  unfold UccAlg.undoCircuit UccAlg.poolAt
  rw [pyIndex_ok h1, except_ok_bind, h3, except_ok_bind, hc, hsa]
  simp only [Bool.false_eq_true, if_false, if_true, e1, except_ok_bind]
  push_cast at e2
  rw [e2, except_ok_bind, addCircuit_eq, List.nil_append]
  rfl

/-- C71, compact circuits: with unit pool coefficients and resolved amplitudes, entry `μ` of `measure_gradient(params)` is the partial derivative
of the UCC energy with respect to amplitude `μ`, for every Trotter number. -/
theorem C71_compact (o : DescSort) (so : SortOracle) (A : UccAlg) (xs : List (List ℕ × List ℕ)) (h : A.Selects xs) (hs : A.saSD = false)
    (hc : A.compact = true) (hd : ∀ x ∈ xs, (x.1 ++ x.2).Nodup ∧ x.1 ≠ []) (hz : A.UnitCoeffs) (ts : List ℝ)
    (hr : ∀ p ∈ List.zip ts xs, CompactResolved p.2 p.1) (Vs : List (ℝ → Op)) (hV : Flows A.qubitExc xs Vs) (hR : A.Ready)
    (hH : HermitianOn A.nqb A.ham.op) (h1 : ts.length = A.tops.length) (h2 : A.tamps.length = A.tops.length) (h3 : A.tops ≠ []) :
    ∃ g, A.measureGradient o so (some ts) = .ok g ∧ g.length = ts.length ∧
      ∀ j (hj : j < ts.length) (hg : j < g.length), HasDerivAt (fun s => uccEnergy A.nqb A.ham.op A.reference Vs (ts.set j s)) g[j] ts[j] := by
  obtain ⟨C, c1, c2, _, c4, c5⟩ := C70_compact o so A xs h hs hc hd ts Vs hV
  obtain ⟨U, psi, e1, e2, w, n, p⟩ := build_of_ansatz o so A ts hR c1 c2 (c5 hr) c4
  have l1 := List.Forall₂.length_eq h
  have l2 := List.Forall₂.length_eq hV
  exact gradient_of_ansatz o so A ts Vs (gradOps_exc o h hz hV) (by omega) hR hH h1 h2 h3 (undoes_compact o h hs hc hd hV ts hr) e1 e2 w n p

/-- C71, compact circuits: where sine and cosine of the rotations are above the threshold the gradient is that of the function `energy_feval` computes. -/
theorem C71_compact_of_feval (o : DescSort) (so : SortOracle) (A : UccAlg) (xs : List (List ℕ × List ℕ)) (h : A.Selects xs) (hs : A.saSD = false)
    (hc : A.compact = true) (hd : ∀ x ∈ xs, (x.1 ++ x.2).Nodup ∧ x.1 ≠ []) (hz : A.UnitCoeffs) (ts : List ℝ)
    (hr : ∀ p ∈ List.zip ts xs, (1e-16 : ℝ) < |Real.cos (p.1 / 2 ^ (2 * p.2.1.length - 1))| ∧ (1e-16 : ℝ) < |Real.sin (p.1 / 2 ^ (2 * p.2.1.length - 1))|)
    (hR : A.Ready) (hH : HermitianOn A.nqb A.ham.op) (h1 : ts.length = A.tops.length) (h2 : A.tamps.length = A.tops.length) (h3 : A.tops ≠ []) :
    ∃ g, A.measureGradient o so (some ts) = .ok g ∧ g.length = ts.length ∧
      ∀ j (hj : j < ts.length) (hg : j < g.length), HasDerivAt (fun s => A.evalE o so (ts.set j s)) g[j] ts[j] := by
  obtain ⟨Vs, hV⟩ := flows_exist A.qubitExc xs
  obtain ⟨g, e1, e2, e3⟩ := C71_compact o so A xs h hs hc hd hz ts (fun p hp => ⟨.inr (hr p hp).1, .inr (hr p hp).2⟩) Vs hV hR hH h1 h2 h3
  refine ⟨g, e1, e2, fun j hj hg => (e3 j hj hg).congr_of_eventuallyEq ?_⟩
  have hlx := List.Forall₂.length_eq h
  have hjx : j < xs.length := by omega
  have h0 := hr (ts[j], xs[j]) (List.mem_iff_getElem.2 ⟨j, by simp; omega, by simp⟩)
  have hopen1 : ∀ᶠ s in nhds ts[j], (1e-16 : ℝ) < |Real.cos (s / 2 ^ (2 * (xs[j]).1.length - 1))| :=
    (continuous_abs.comp (Real.continuous_cos.comp (continuous_id.div_const _))).continuousAt.eventually (lt_mem_nhds h0.1)
  have hopen2 : ∀ᶠ s in nhds ts[j], (1e-16 : ℝ) < |Real.sin (s / 2 ^ (2 * (xs[j]).1.length - 1))| :=
    (continuous_abs.comp (Real.continuous_sin.comp (continuous_id.div_const _))).continuousAt.eventually (lt_mem_nhds h0.2)
  filter_upwards [hopen1, hopen2] with s hs1 hs2
  unfold UccAlg.evalE
  rw [(C70_compact_energy o so A xs h hs hc hd (ts.set j s) ?_ Vs hV hR).1]
  intro p hp
  obtain ⟨k, hk, rfl⟩ := List.mem_iff_getElem.1 hp
  rw [List.getElem_zip]
  simp only
  have hk' : k < ts.length ∧ k < xs.length := by simp at hk; omega
  by_cases e : j = k
  · subst e; rw [List.getElem_set_self]; exact ⟨.inr hs1, .inr hs2⟩
  · rw [List.getElem_set_ne e]
    have := hr (ts[k], xs[k]) (List.mem_iff_getElem.2 ⟨k, by simp; omega, by simp⟩)
    exact ⟨.inr this.1, .inr this.2⟩

/-- C71, compact circuits: resolved amplitudes of a double excitation, one generic and zero -/
theorem C71_compact_example : Excit 4 [3, 2] [1, 0] ∧ (([3, 2] : List ℕ) ++ [1, 0]).Nodup ∧ CompactResolved ([3, 2], [1, 0]) 0.8 ∧ CompactResolved ([3, 2], [1, 0]) 0 := by
  refine ⟨by constructor <;> simp, by simp, ?_, ?_⟩
  · have e : (0.8 : ℝ) / 2 ^ (2 * ([3, 2] : List ℕ).length - 1) = 0.1 := by norm_num
    refine ⟨.inr ?_, .inr ?_⟩
    · simp only [e]
      have := Real.one_sub_sq_div_two_le_cos (x := 0.1)
      rw [abs_of_pos (by norm_num at this ⊢; linarith)]
      norm_num at this ⊢; linarith
    · simp only [e]
      have := Real.sin_gt_sub_cube (x := 0.1) (by norm_num)
      rw [abs_of_pos (by norm_num at this ⊢; linarith)]
      norm_num at this ⊢; linarith
  · simp [CompactResolved]; norm_num

theorem C70_compact_example : Excit 4 [3, 2] [1, 0] ∧ (([3, 2] : List ℕ) ++ [1, 0]).Nodup := by
  refine ⟨by constructor <;> simp, by simp⟩

end QF
