import Verif.Lemmas.Apply2
import Mathlib.Algebra.BigOperators.Group.List.Basic
import Mathlib.LinearAlgebra.Matrix.NonsingularInverse

namespace QF

open Classical in
/-- nested guarded accumulation over row labels `is` and column labels `js` -/
theorem accumFold {ι : Type} (is js : List ι) (ent : ι → ι → ℂ) (basis : List ℕ)
    (cond : ι → ℕ → Bool) (dest : ι → ℕ → ℕ) (P : ι → ℕ → Prop) (inv : ι → ℕ → ℕ)
    (coeff nw : List ℂ) (hnd : basis.Nodup)
    (hinv : ∀ i j I J, (cond j J = true ∧ dest i J = I) ↔ (P i I ∧ J = inv j I))
    (hb : ∀ J ∈ basis, J < coeff.length) (hd : ∀ i, ∀ J ∈ basis, dest i J < nw.length) :
    ∃ nw', is.foldlM (fun nw i => js.foldlM (fun nw j =>
        if ‖ent i j‖ > thr then accum basis (cond j) (dest i) (ent i j) coeff nw else pure nw) nw) nw = .ok nw' ∧
      nw'.length = nw.length ∧
      ∀ I, vec nw' I = vec nw I + (is.map fun i => (js.map fun j =>
        if P i I ∧ inv j I ∈ basis then trunc (ent i j) * vec coeff (inv j I) else 0).sum).sum := by
  have hinner : ∀ (i : ι) (js : List ι) (nw : List ℂ), (∀ J ∈ basis, dest i J < nw.length) →
      ∃ nw', js.foldlM (fun nw j =>
        if ‖ent i j‖ > thr then accum basis (cond j) (dest i) (ent i j) coeff nw else pure nw) nw = .ok nw' ∧
      nw'.length = nw.length ∧
      ∀ I, vec nw' I = vec nw I + (js.map fun j =>
        if P i I ∧ inv j I ∈ basis then trunc (ent i j) * vec coeff (inv j I) else 0).sum := by
    intro i js
    induction js with
    | nil => intro nw _; exact ⟨nw, rfl, rfl, fun I => by simp⟩
    | cons j js ih =>
      intro nw hd
      obtain ⟨nw1, e1, e2, e3⟩ := accum_trunc basis (cond j) (dest i) (ent i j) coeff nw (P i) (inv j) hnd
        (hinv i j) hb hd
      obtain ⟨nw2, f1, f2, f3⟩ := ih nw1 (fun J hJ => by rw [e2]; exact hd J hJ)
      refine ⟨nw2, ?_, by rw [f2, e2], ?_⟩
      · rw [List.foldlM_cons, e1, except_ok_bind, f1]
      · intro I
        rw [f3, e3, List.map_cons, List.sum_cons, add_assoc]
  induction is generalizing nw with
  | nil => exact ⟨nw, rfl, rfl, fun I => by simp⟩
  | cons i is ih =>
    obtain ⟨nw1, e1, e2, e3⟩ := hinner i js nw (hd i)
    obtain ⟨nw2, f1, f2, f3⟩ := ih nw1 (fun i J hJ => by rw [e2]; exact hd i J hJ)
    refine ⟨nw2, ?_, by rw [f2, e2], ?_⟩
    · rw [List.foldlM_cons, e1, except_ok_bind, f1]
    · intro I
      rw [f3, e3, List.map_cons, List.sum_cons, add_assoc]

theorem hinv1 (t : ℕ) (i j : Bool) (I J : ℕ) :
    ((J.testBit t == j) = true ∧ setBit J t i = I) ↔ (I.testBit t = i ∧ J = setBit I t j) := by
  simp only [beq_iff_eq]
  constructor
  · rintro ⟨h1, rfl⟩
    exact ⟨by simp, by rw [setBit_setBit, setBit_eq_self h1]⟩
  · rintro ⟨h1, rfl⟩
    exact ⟨by simp, by rw [setBit_setBit, setBit_eq_self h1]⟩

theorem setBit2_same (I t c : ℕ) (h : t ≠ c) (x y x' y' : Bool) :
    setBit (setBit (setBit (setBit I c x) t y) c x') t y' = setBit (setBit I c x') t y' := by
  rw [setBit_comm (setBit I c x) h y x', setBit_setBit, setBit_setBit]

theorem hinv2 (t c : ℕ) (h : t ≠ c) (i j : Bool × Bool) (I J : ℕ) :
    ((J.testBit c == j.1 && J.testBit t == j.2) = true ∧ setBit (setBit J c i.1) t i.2 = I) ↔
      ((I.testBit c = i.1 ∧ I.testBit t = i.2) ∧ J = setBit (setBit I c j.1) t j.2) := by
  simp only [Bool.and_eq_true, beq_iff_eq]
  constructor
  · rintro ⟨⟨h1, h2⟩, rfl⟩
    refine ⟨⟨by simp [Ne.symm h], by simp⟩, ?_⟩
    rw [setBit2_same _ _ _ h, setBit_eq_self h1, setBit_eq_self h2]
  · rintro ⟨⟨h1, h2⟩, rfl⟩
    refine ⟨⟨by simp [Ne.symm h], by simp⟩, ?_⟩
    rw [setBit2_same _ _ _ h, setBit_eq_self h1, setBit_eq_self h2]

/-- entrywise truncation of a gate matrix -/
noncomputable def truncMat (m : Mat4) : Mat4 := fun i j => trunc (m i j)

theorem truncMat_near (m : Mat4) : Near (truncMat m) m := by
  intro i j
  rcases trunc_or (m i j) with h | ⟨h, h2⟩
  · simp only [truncMat, h]; norm_num
  · simp only [truncMat, h]; unfold thr at h2; simpa using h2

theorem apply1Safe_ok (q : Computer) (g : Gate) (hq : q.WF) (ht : g.target < q.nqubit) :
    ∃ nw, q.apply1Safe g = .ok { q with newCoeff := nw, noneOps := q.noneOps + 1 } ∧
      nw.length = 2 ^ q.nqubit ∧ vec nw = op1 g.target (toM2 (truncMat g.mat)) q.psi := by
  have hbas : ∀ J ∈ List.range q.nbasis, J < q.coeff.length := by
    intro J hJ; rw [hq.len, ← hq.nbasis]; exact List.mem_range.1 hJ
  obtain ⟨nw, e1, e2, e3⟩ := accumFold [false, true] [false, true]
    (fun i j => g.mat (ix1 i) (ix1 j)) (List.range q.nbasis) (fun j J => J.testBit g.target == j)
    (fun i J => setBit J g.target i) (fun i I => I.testBit g.target = i) (fun j I => setBit I g.target j)
    q.coeff q.newCoeff List.nodup_range (fun i j I J => hinv1 _ i j I J) hbas
    (fun i J hJ => by
      rw [hq.new, List.length_replicate, setBit_lt ht, ← hq.nbasis]; exact List.mem_range.1 hJ)
  refine ⟨nw, ?_, by rw [e2, hq.new]; simp, ?_⟩
  · unfold Computer.apply1Safe
    simp only []
    rw [e1]; rfl
  · funext I
    rw [e3, hq.new]
    by_cases hI : I < 2 ^ q.nqubit
    · have hs : ∀ b, setBit I g.target b ∈ List.range q.nbasis := fun b => by
        rw [List.mem_range, hq.nbasis, setBit_lt ht]; exact hI
      simp only [vec_replicate, Pi.zero_apply, hs, and_true, List.map_cons, List.map_nil, List.sum_cons,
        List.sum_nil, op1_apply, toM2, truncMat, Computer.psi]
      cases I.testBit g.target <;> simp
    · have hs : ∀ b, ¬ setBit I g.target b ∈ List.range q.nbasis := fun b => by
        rw [List.mem_range, hq.nbasis, setBit_lt ht]; exact hI
      rw [op1_eq_of_ge ht _ (fun K hK => hq.psi_ge hK) (by omega)]
      simp [hs]

theorem accum2_ok (q : Computer) (g : Gate) (hq : q.WF) (hne : g.target ≠ g.control)
    (ht : g.target < q.nqubit) (hc : g.control < q.nqubit) :
    ∃ nw, accum2 q g = .ok nw ∧
      nw.length = 2 ^ q.nqubit ∧ vec nw = op2 g.target g.control (toM4 (truncMat g.mat)) q.psi := by
  have hbas : ∀ J ∈ List.range q.nbasis, J < q.coeff.length := by
    intro J hJ; rw [hq.len, ← hq.nbasis]; exact List.mem_range.1 hJ
  obtain ⟨nw, e1, e2, e3⟩ := accumFold [(false, false), (false, true), (true, false), (true, true)]
    [(false, false), (false, true), (true, false), (true, true)]
    (fun i j => g.mat (ix2 i.1 i.2) (ix2 j.1 j.2)) (List.range q.nbasis)
    (fun j J => J.testBit g.control == j.1 && J.testBit g.target == j.2)
    (fun i J => setBit (setBit J g.control i.1) g.target i.2)
    (fun i I => I.testBit g.control = i.1 ∧ I.testBit g.target = i.2)
    (fun j I => setBit (setBit I g.control j.1) g.target j.2)
    q.coeff q.newCoeff List.nodup_range (fun i j I J => hinv2 _ _ hne i j I J) hbas
    (fun i J hJ => by
      rw [hq.new, List.length_replicate, setBit_lt ht, setBit_lt hc, ← hq.nbasis]; exact List.mem_range.1 hJ)
  refine ⟨nw, e1, by rw [e2, hq.new]; simp, ?_⟩
  funext I
  rw [e3, hq.new]
  have hs0 : ∀ a b, setBit (setBit I g.control a) g.target b ∈ List.range q.nbasis ↔ I < 2 ^ q.nqubit :=
    fun a b => by
      rw [List.mem_range, hq.nbasis, setBit_lt ht, setBit_lt hc]
  by_cases hI : I < 2 ^ q.nqubit
  · simp only [vec_replicate, Pi.zero_apply, hs0, hI, and_true, List.map_cons, List.map_nil, List.sum_cons,
      List.sum_nil, op2_apply, toM4, truncMat, Computer.psi]
    cases I.testBit g.control <;> cases I.testBit g.target <;> simp <;> ring
  · have hz : ∀ a b, q.psi (setBit (setBit I g.control a) g.target b) = 0 := fun a b => by
      apply hq.psi_ge
      have := (not_congr (hs0 a b)).2 hI
      rw [List.mem_range, hq.nbasis] at this; omega
    simp [hs0, hI, op2_apply, hz]

theorem map_zero_eq (l : List ℂ) : l.map (fun _ => (0 : ℂ)) = List.replicate l.length 0 := by
  simp

theorem applyGateSafe_ok (q : Computer) (g : Gate) (hq : q.WF)
    (ht : g.target < q.nqubit) (hc : g.control < q.nqubit) :
    ∃ q', q.applyGateSafe g = .ok q' ∧ q'.WF ∧ q'.nqubit = q.nqubit ∧
      q'.psi = matOp g.target g.control (truncMat g.mat) q.psi := by
  unfold Computer.applyGateSafe
  by_cases h : g.target = g.control
  · obtain ⟨nw, e1, e2, e3⟩ := apply1Safe_ok q g hq ht
    have h1 : g.nqubits = 1 := by simp [Gate.nqubits, h]
    simp only [h1, if_true, e1, except_ok_bind, show ((1 : ℕ) = 2) = False by simp, if_false, pure, Except.pure]
    refine ⟨_, rfl, ⟨hq.nbasis, e2, ?_⟩, rfl, ?_⟩
    · show nw.map _ = _; rw [map_zero_eq, e2]
    · rw [matOp, if_pos h]; exact e3
  · obtain ⟨nw, e1, e2, e3⟩ := accum2_ok q g hq h ht hc
    have h1 : g.nqubits = 2 := by simp [Gate.nqubits, h]
    simp only [h1, if_true, Computer.apply2Safe, e1, except_ok_bind, show ((2 : ℕ) = 1) = False by simp, if_false, pure, Except.pure]
    refine ⟨_, rfl, ⟨hq.nbasis, e2, ?_⟩, rfl, ?_⟩
    · show nw.map _ = _; rw [map_zero_eq, e2]
    · rw [matOp, if_neg h]; exact e3

theorem apply2_case2_ok (q : Computer) (g : Gate) (hq : q.WF) (hne : g.target ≠ g.control)
    (ht : g.target < q.nqubit) (hc : g.control < q.nqubit)
    (hm : ¬ (‖g.mat 0 1‖ + ‖g.mat 1 0‖ < thr ∧ g.mat 0 0 = 1 ∧ g.mat 1 1 = 1)) :
    ∃ q', q.apply2 g = .ok q' ∧ q'.WF ∧ q'.nqubit = q.nqubit ∧
      q'.noneOps = q.noneOps ∧ q'.ntwoOps = q.ntwoOps + 1 ∧
      q'.psi = matOp g.target g.control (truncMat g.mat) q.psi := by
  obtain ⟨nw, e1, e2, e3⟩ := accum2_ok q g hq hne ht hc
  unfold Computer.apply2
  simp only []
  rw [if_neg hm, e1]
  refine ⟨_, rfl, ⟨hq.nbasis, e2, ?_⟩, rfl, rfl, rfl, ?_⟩
  · show nw.map _ = _; rw [map_zero_eq, e2]
  · rw [matOp, if_neg hne]; exact e3

/-- an identity upper-left corner forces the rest of those rows and columns to vanish in a unitary -/
theorem isCtrl_of_unitary {m : Mat4} (hu : m.conjTranspose * m = 1)
    (hm : ‖m 0 1‖ + ‖m 1 0‖ < thr ∧ m 0 0 = 1 ∧ m 1 1 = 1) : IsCtrl m := by
  obtain ⟨_, h00, h11⟩ := hm
  have hu' : m * m.conjTranspose = 1 := by
    rw [mul_eq_one_comm]; exact hu
  have col : ∀ j, Complex.normSq (m 0 j) + Complex.normSq (m 1 j) + Complex.normSq (m 2 j) + Complex.normSq (m 3 j) = 1 := by
    intro j
    have := congrFun (congrFun hu j) j
    simp only [Matrix.mul_apply, Matrix.conjTranspose_apply, Fin.sum_univ_four, Matrix.one_apply_eq] at this
    have h := congrArg Complex.re this
    simp [Complex.normSq_apply] at h ⊢
    linarith
  have row : ∀ i, Complex.normSq (m i 0) + Complex.normSq (m i 1) + Complex.normSq (m i 2) + Complex.normSq (m i 3) = 1 := by
    intro j
    have := congrFun (congrFun hu' j) j
    simp only [Matrix.mul_apply, Matrix.conjTranspose_apply, Fin.sum_univ_four, Matrix.one_apply_eq] at this
    have h := congrArg Complex.re this
    simp [Complex.normSq_apply] at h ⊢
    linarith
  have c0 := col 0; have c1 := col 1; have r0 := row 0; have r1 := row 1
  rw [h00] at c0 r0; rw [h11] at c1 r1
  rw [Complex.normSq_one] at c0 c1 r0 r1
  have nn := fun i j => Complex.normSq_nonneg (m i j)
  have z : ∀ i j, Complex.normSq (m i j) ≤ 0 → m i j = 0 := fun i j h =>
    Complex.normSq_eq_zero.1 (le_antisymm h (nn i j))
  refine ⟨h00, h11, ?_, ?_, ?_, ?_, ?_, ?_, ?_, ?_, ?_, ?_⟩ <;> apply z
  · linarith [nn 0 1, nn 0 2, nn 0 3]
  · linarith [nn 1 0, nn 2 0, nn 3 0]
  · linarith [nn 0 1, nn 0 2, nn 0 3]
  · linarith [nn 0 1, nn 0 2, nn 0 3]
  · linarith [nn 1 0, nn 1 2, nn 1 3]
  · linarith [nn 1 0, nn 1 2, nn 1 3]
  · linarith [nn 1 0, nn 2 0, nn 3 0]
  · linarith [nn 0 1, nn 2 1, nn 3 1]
  · linarith [nn 1 0, nn 2 0, nn 3 0]
  · linarith [nn 0 1, nn 2 1, nn 3 1]

end QF
