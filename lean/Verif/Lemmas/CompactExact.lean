import Verif.Lemmas.CompactExc
import Verif.Lemmas.ExpoExact
import Verif.Props.CompactMain
import Verif.Spec.UCC
import Verif.Props.Jacobi
import Verif.Lemmas.Measure

/-!
The gates of the compact excitation circuits are simulated exactly if the rotation angles are resolved.
-/
namespace QF

theorem exact_Ry {t : ℕ} {θ : ℝ} {g : Gate} (h : makeGate "Ry" t t θ = .ok g) (hc : Real.cos (θ / 2) = 0 ∨ 1e-16 < |Real.cos (θ / 2)|)
    (hs : Real.sin (θ / 2) = 0 ∨ 1e-16 < |Real.sin (θ / 2)|) : ExactGate g := by
  have hm := made_of_makeGate h
  refine ⟨api_unitary (.make h), made_fast hm (by decide), ?_⟩
  generalize hst : "Ry" = s at hm
  cases hm <;> first | (exfalso; revert hst; decide) | skip
  have key : ∀ x : ℝ, (x = 0 ∨ 1e-16 < |x|) → Res (x : ℂ) := fun x hx h0 => by
    rcases hx with rfl | hx
    · simp at h0
    · rwa [Complex.norm_real]
  have hl := lit_Ry θ
  have e00 := congrFun (congrFun hl false) false
  have e10 := congrFun (congrFun hl true) false
  simp [m2, typeM] at e00 e10
  have c0 : Real.cos (0.5 * normalizeAngle θ (4 * Real.pi)) = Real.cos (θ / 2) := by
    have : ((Real.cos (0.5 * normalizeAngle θ (4 * Real.pi)) : ℝ) : ℂ) = ((Real.cos (θ / 2) : ℝ) : ℂ) := by push_cast; exact e00
    exact_mod_cast this
  have s0 : Real.sin (0.5 * normalizeAngle θ (4 * Real.pi)) = Real.sin (θ / 2) := by
    have : ((Real.sin (0.5 * normalizeAngle θ (4 * Real.pi)) : ℝ) : ℂ) = ((Real.sin (θ / 2) : ℝ) : ℂ) := by push_cast; exact e10
    exact_mod_cast this
  rw [c0, s0]
  refine .mat1 (key _ hc) ?_ (key _ hs) (key _ hc)
  have := key (-Real.sin (θ / 2)) (by rw [abs_neg, neg_eq_zero]; exact hs)
  push_cast at this ⊢
  exact this

/-- a gate without parameter that `gate(type, target, control)` made -/
theorem exact_py2 {ty : String} {t c : ℕ} {g : Gate} (h : pyGate2 ty t c = .ok g) (hty : ty = "CNOT" ∨ ty = "aCNOT" ∨ ty = "cZ") :
    ApiGate g ∧ ExactGate g := by
  have hne : t ≠ c := by
    rintro rfl
    rcases hty with rfl | rfl | rfl <;> simp [pyGate2, makeGate] at h
  rcases hty with rfl | rfl | rfl
  · rw [py_CNOT hne] at h; cases h
    exact ⟨.make (make_CNOT hne 0), (C08_hypotheses_constant_gates (make_CNOT hne 0) rfl).1⟩
  · rw [py_aCNOT hne] at h; cases h
    exact ⟨.make (make_aCNOT hne 0), (C08_hypotheses_constant_gates (make_aCNOT hne 0) rfl).1⟩
  · rw [py_CZ hne] at h; cases h
    exact ⟨.make (make_CZ hne 0), (C08_hypotheses_constant_gates (make_CZ hne 0) rfl).1⟩

/-- every gate is one of the API that the simulator applies exactly -/
def Circuit.AllExact (c : Circuit) : Prop := ∀ g ∈ c, ApiGate g ∧ ExactGate g

theorem Circuit.AllExact.append {c d : Circuit} (h : c.AllExact) (h' : d.AllExact) : Circuit.AllExact (c ++ d) := by
  intro g hg
  rcases List.mem_append.1 hg with hg | hg
  exacts [h g hg, h' g hg]

theorem Circuit.AllExact.adjoint {c : Circuit} (h : c.AllExact) : c.adjoint.AllExact := by
  intro g hg
  obtain ⟨x, hx, rfl⟩ := List.mem_map.1 (List.mem_reverse.1 hg)
  exact ⟨.adj (h x hx).1, (h x hx).2.adjoint (h x hx).1⟩

theorem Circuit.AllExact.nil : Circuit.AllExact [] := fun _ h => absurd h (by simp)

theorem Circuit.AllExact.add {c : Circuit} (h : c.AllExact) {g : Gate} (hg : ApiGate g ∧ ExactGate g) : (c.addGate g).AllExact := by
  refine h.append ?_
  intro x hx; rw [List.mem_singleton.1 hx]; exact hg

theorem fermionSign_exact {cre ann : List ℕ} {C : Circuit} (h : fermionSignCircuit cre ann = .ok C) : C.AllExact := by
  unfold fermionSignCircuit at h
  obtain ⟨idx, _, h⟩ := bindOk h
  split at h
  · cases h; exact .nil
  · obtain ⟨c, e1, h⟩ := bindOk h
    obtain ⟨t, _, h⟩ := bindOk h
    obtain ⟨s, _, h⟩ := bindOk h
    obtain ⟨g, e2, h⟩ := bindOk h
    cases h
    refine Circuit.AllExact.add (foldlM_inv Circuit.AllExact _ ?_ _ _ _ .nil e1) (exact_py2 e2 (by simp))
    intro b a b' hb e
    obtain ⟨t, _, e⟩ := bindOk e
    obtain ⟨s, _, e⟩ := bindOk e
    obtain ⟨g, e2, e⟩ := bindOk e
    cases e
    exact hb.add (exact_py2 e2 (by simp))

theorem ryControl_exact {t : ℕ} {controls : List ℕ} {gsd : Bool} {i : ℕ} {c C : Circuit} (hc : c.AllExact) (h : ryControl t controls gsd i c = .ok C) :
    C.AllExact := by
  unfold ryControl at h
  simp only at h
  split at h
  · cases h; exact hc
  · split at h
    · obtain ⟨g, e2, e⟩ := bindOk h
      cases e
      exact hc.add (exact_py2 e2 (by simp))
    · split at h
      · obtain ⟨g, e2, e⟩ := bindOk h
        cases e
        exact hc.add (exact_py2 e2 (by simp))
      · obtain ⟨g, e2, e⟩ := bindOk h
        cases e
        exact hc.add (exact_py2 e2 (by simp))

/-- sine and cosine of half the angle are zero or above the threshold -/
def RyResolved (x : ℝ) : Prop := (Real.cos (x / 2) = 0 ∨ 1e-16 < |Real.cos (x / 2)|) ∧ (Real.sin (x / 2) = 0 ∨ 1e-16 < |Real.sin (x / 2)|)

theorem RyResolved.neg {x : ℝ} (h : RyResolved x) : RyResolved (-x) := by
  unfold RyResolved at h ⊢
  rw [neg_div, Real.cos_neg, Real.sin_neg, abs_neg, neg_eq_zero]
  exact h

theorem rySign_pm (rank : ℕ) (q : Bool) (i : ℕ) : rySign rank 1 q i = 1 ∨ rySign rank 1 q i = -1 := by
  have h : i % 2 = 0 ∨ i % 2 = 1 := by omega
  unfold rySign
  simp only
  rcases h with h | h <;> rw [h] <;> split_ifs <;> simp

theorem multiRy_exact {θ : ℝ} {t : ℕ} {cc ca gs : List ℕ} {q : Bool} {C : Circuit} (h : multiQubitControlledRy θ t cc ca gs 1 q = .ok C)
    (hr : RyResolved (θ / 2 ^ ((ca ++ cc.reverse ++ gs).length - 1))) : C.AllExact := by
  unfold multiQubitControlledRy at h
  simp only at h
  split at h
  · cases h
  · refine foldlM_inv Circuit.AllExact _ ?_ _ _ _ .nil h
    intro b i b' hb e
    obtain ⟨g, e1, e⟩ := bindOk e
    have hx : ((rySign ca.length 1 q i : ℂ) * ((θ : ℂ) / (2 ^ ((ca ++ cc.reverse ++ gs).length - 1) : ℕ))) =
        (((rySign ca.length 1 q i : ℝ) * (θ / 2 ^ ((ca ++ cc.reverse ++ gs).length - 1)) : ℝ) : ℂ) := by push_cast; ring
    rw [hx, py_Ry] at e1
    cases e1
    refine ryControl_exact (hb.add ⟨.make (make_Ry t _), ?_⟩) e
    have hr' : RyResolved ((rySign ca.length 1 q i : ℝ) * (θ / 2 ^ ((ca ++ cc.reverse ++ gs).length - 1))) := by
      rcases rySign_pm ca.length q i with e | e
      · rw [e]; simpa using hr
      · rw [e]; simpa using hr.neg
    exact exact_Ry (make_Ry t _) hr'.1 hr'.2

theorem qubitExcitation_exact {θ : ℝ} {cre ann gs : List ℕ} {q : Bool} {C : Circuit} (h : qubitExcitation θ cre ann gs 1 q = .ok C)
    (hr : RyResolved (θ / 2 ^ ((ann ++ cre.tail.reverse ++ gs).length - 1))) : C.AllExact := by
  have hfold : ∀ (l ts : List ℕ) (c c' : Circuit), c.AllExact → ts.foldlM (fun c t => (do
      let x ← pyIndex l 0
      let g ← pyGate2 "CNOT" t x
      pure (Circuit.addGate c g) : Except Exc Circuit)) c = .ok c' → c'.AllExact := by
    intro l ts c c' hc e
    refine foldlM_inv Circuit.AllExact _ ?_ _ _ _ hc e
    intro b i b' hb e
    obtain ⟨x, _, e⟩ := bindOk e
    obtain ⟨g, e2, e⟩ := bindOk e
    cases e
    exact hb.add (exact_py2 e2 (by simp))
  unfold qubitExcitation at h
  obtain ⟨c1, e1, h⟩ := bindOk h
  obtain ⟨c2, e2, h⟩ := bindOk h
  obtain ⟨a0, _, h⟩ := bindOk h
  obtain ⟨c0, _, h⟩ := bindOk h
  obtain ⟨g, e3, h⟩ := bindOk h
  obtain ⟨r, e4, h⟩ := bindOk h
  cases h
  have h3 : (c2.addGate g).AllExact := (hfold _ _ _ _ (hfold _ _ _ _ .nil e1) e2).add (exact_py2 e3 (by simp))
  rw [addCircuit_eq, addCircuit_eq]
  exact (h3.append (multiRy_exact e4 hr)).append h3.adjoint

/-- all gates of the compact circuit of an excitation without repeated indices are applied exactly if the amplitude is resolved -/
theorem compact_exact {θ : ℝ} {cre ann : List ℕ} (hd : (cre ++ ann).Nodup) {q : Bool} {C : Circuit}
    (h : compactExcitationCircuit θ cre ann q = .ok C) (hne : cre ≠ []) (hr : CompactResolved (cre, ann) θ) : C.AllExact := by
  have hdisj : ∀ x ∈ cre, x ∉ ann := fun x hx hx' => (List.nodup_append.1 hd).2.2 x hx x hx' rfl
  have f1 : cre.filter (· ∉ ann) = cre := List.filter_eq_self.2 (fun x hx => by simpa using hdisj x hx)
  have f2 : ann.filter (· ∉ cre) = ann := List.filter_eq_self.2 (fun x hx => by
    have : x ∉ cre := fun hx' => hdisj x hx' hx
    simpa using this)
  have f3 : cre.filter (· ∈ ann) = [] := List.filter_eq_nil_iff.2 (fun x hx => by simpa using hdisj x hx)
  unfold compactExcitationCircuit at h
  by_cases hlen : cre.length = ann.length
  · rw [if_neg (not_not.2 hlen)] at h
    simp only [f1, f2, f3, List.dedup_nil, List.length_nil, gt_iff_lt, Nat.not_lt_zero, if_false, pure, Except.pure, except_ok_bind,
      Bool.false_eq_true] at h
    obtain ⟨st, e1, h⟩ := bindOk h
    obtain ⟨e, e2, h⟩ := bindOk h
    have hpos : 0 < cre.length := List.length_pos_iff.2 hne
    have hE : e.AllExact := by
      refine qubitExcitation_exact e2 ?_
      have : (ann ++ cre.tail.reverse ++ []).length - 1 = 2 * cre.length - 1 - 1 := by simp; omega
      rw [this]
      unfold CompactResolved at hr
      have e : θ / 2 ^ (2 * cre.length - 1 - 1) / 2 = θ / 2 ^ (2 * cre.length - 1) := by
        rw [div_div, ← pow_succ, Nat.sub_add_cancel (by omega)]
      unfold RyResolved
      rw [e]
      exact hr
    have hst : st.AllExact := by
      cases q
      · simp only [Bool.false_eq_true, if_false] at e1
        exact fermionSign_exact e1
      · simp only [if_true] at e1
        cases e1; exact .nil
    cases h
    have h1 : (Circuit.addCircuit (Circuit.addCircuit [] st) e).AllExact := by
      rw [addCircuit_eq, addCircuit_eq, List.nil_append]
      exact hst.append hE
    cases q
    · simp only [Bool.false_eq_true, if_false]
      rw [addCircuit_eq]
      exact h1.append hst.adjoint
    · simpa using h1
  · rw [if_pos hlen] at h; cases h

end QF
