import Verif.Props.TrotterExact
import Verif.Props.ExpVal

/-!
`trotterize_w_cRz` with identity terms: the circuit is the controlled evolution without the phases of the identity terms, which are
returned separately.
-/
namespace QF

/-- `W` does nothing to qubit `a` -/
def OffQubit (a : ℕ) (W : Op) : Prop := ∀ m, Commute (op1 a m) W

theorem OffQubit.one (a : ℕ) : OffQubit a 1 := fun _ => Commute.one_right _
theorem OffQubit.mul {a : ℕ} {U V : Op} (hU : OffQubit a U) (hV : OffQubit a V) : OffQubit a (U * V) := fun m => (hU m).mul_right (hV m)
theorem OffQubit.pow {a : ℕ} {U : Op} (hU : OffQubit a U) (k : ℕ) : OffQubit a (U ^ k) := fun m => (hU m).pow_right k
theorem OffQubit.proj {a : ℕ} {U : Op} (hU : OffQubit a U) (b : Bool) : Commute (proj a b) U := hU _

theorem proj_mul_proj (a : ℕ) (b : Bool) : proj a b * proj a b = proj a b ∧ proj a b * proj a (!b) = 0 := by
  constructor <;> refine Op.ext' fun ψ I => ?_
  · simp only [Module.End.mul_apply, proj_apply]; split_ifs <;> rfl
  · simp only [Module.End.mul_apply, proj_apply, LinearMap.zero_apply, Pi.zero_apply]
    cases b <;> cases I.testBit a <;> simp

theorem ctrlOp_mul {a : ℕ} {b : Bool} {U V : Op} (hU : OffQubit a U) : ctrlOp a b U * ctrlOp a b V = ctrlOp a b (U * V) := by
  unfold ctrlOp
  have h1 := (proj_mul_proj a b).1
  have h2 := (proj_mul_proj a b).2
  have h3 := (proj_mul_proj a (!b)).1
  have h4 := (proj_mul_proj a (!b)).2
  rw [Bool.not_not] at h4
  have e1 : QF.proj a b * U * QF.proj a (!b) = 0 := by rw [mul_assoc, ← (hU.proj (!b)).eq, ← mul_assoc, h2, zero_mul]
  have e2 : QF.proj a b * U * (QF.proj a b * V) = QF.proj a b * (U * V) := by
    rw [← mul_assoc, mul_assoc (QF.proj a b) U, ← (hU.proj b).eq, ← mul_assoc, h1, mul_assoc]
  have e3 : QF.proj a (!b) * (QF.proj a b * V) = 0 := by rw [← mul_assoc, h4, zero_mul]
  rw [add_mul, mul_add, mul_add, h3, e1, e2, e3]
  simp

theorem ctrlOp_one (a : ℕ) (b : Bool) : ctrlOp a b 1 = 1 := by
  refine Op.ext' fun ψ I => ?_
  rw [ctrlOp_apply]; simp

theorem ctrlOp_pow {a : ℕ} {b : Bool} {U : Op} (hU : OffQubit a U) (k : ℕ) : ctrlOp a b U ^ k = ctrlOp a b (U ^ k) := by
  induction k with
  | zero => rw [pow_zero, pow_zero, ctrlOp_one]
  | succ k ih => rw [pow_succ, ih, ctrlOp_mul (hU.pow k), pow_succ]

theorem exact_cRz {t c : ℕ} {θ : ℝ} {g : Gate} (h : makeGate "cRz" t c θ = .ok g) : ExactGate g := by
  have hm := made_of_makeGate h
  refine ⟨api_unitary (.make h), made_fast hm (by decide), ?_⟩
  generalize hs : "cRz" = s at hm
  cases hm <;> first | (exfalso; revert hs; decide) | skip
  have key : ∀ x : ℂ, x.re = 0 → Res (Complex.exp x) := fun x hx _ => by rw [Complex.norm_exp, hx, Real.exp_zero]; norm_num
  exact .matC (key _ (by simp)) .zero .zero (key _ (by simp))

/-- every gate of a controlled exponentiated Pauli string is applied exactly -/
theorem expo_exact_ctrl {z : ℂ} {c : Circuit} (h : c.IPauliString) {a : ℕ} {C : Circuit} {ph : ℂ}
    (hr : exponentiatePauliString z c true (some a) false = .ok (C, ph)) : ∀ g ∈ C, ExactGate g := by
  unfold exponentiatePauliString at hr
  split at hr
  · cases hr
  split at hr
  · cases hr; simp
  obtain ⟨hp, hn⟩ := noI_pauli h
  obtain ⟨o, p, h1, h2⟩ := expoFold_ok c ⟨[], [], [], none, none⟩ h.gates (by simpa using hn) rfl
  rw [h1, except_ok_bind] at hr
  simp only [Bool.false_eq_true, if_true, if_false, List.nil_append, addCircuit_eq, pure, Except.pure, except_ok_bind] at hr
  have hT : ∀ g ∈ toZc c, ApiGate g ∧ ExactGate g := fun g hg => ⟨toZc_api _ g hg, toZc_exact g hg⟩
  have hW := cxChain_exact hn
  cases p with
  | none => simp [pyGate3Opt, bind, Except.bind] at hr
  | some p =>
    rcases hR : makeGate "cRz" p a (-2 * z.im) with _ | R
    · simp only [pyGate3Opt, py3_real, hR] at hr; cases hr
    simp only [pyGate3Opt, py3_real, hR, except_ok_bind] at hr
    cases hr
    intro g hg
    simp only [Circuit.addGate, List.mem_append, List.mem_singleton] at hg
    rcases hg with (((hg | hg) | rfl) | hg) | hg
    · exact (hT g hg).2
    · exact (hW g hg).2
    · exact exact_cRz hR
    · exact adjoint_exact hW g hg
    · exact adjoint_exact hT g hg

/-- the loop, when the result of every term is known -/
theorem trotterLoop_fun (cr : Bool × Option ℕ × Bool) (f : ℂ → ℂ) (F : ℂ × Circuit → Circuit × ℂ) (A : QubitOperator)
    (h : ∀ t ∈ A, exponentiatePauliString (f t.1) t.2 cr.1 cr.2.1 cr.2.2 = .ok (F t)) :
    trotterLoop cr f A = .ok ((A.map fun t => (F t).1).flatten, (A.map fun t => (F t).2).prod) := by
  have key : ∀ (A : QubitOperator) (s : Circuit × ℂ), (∀ t ∈ A, exponentiatePauliString (f t.1) t.2 cr.1 cr.2.1 cr.2.2 = .ok (F t)) →
      A.foldlM (fun (s : Circuit × ℂ) t => (do
        let (gen, ph) ← exponentiatePauliString (f t.1) t.2 cr.1 cr.2.1 cr.2.2
        pure (gen.foldl Circuit.addGate s.1, s.2 * ph) : Except Exc (Circuit × ℂ))) s =
      .ok (s.1 ++ (A.map fun t => (F t).1).flatten, s.2 * (A.map fun t => (F t).2).prod) := by
    intro A
    induction A with
    | nil => intro s _; simp [pure, Except.pure]
    | cons t A ih =>
      intro s h
      rw [List.foldlM_cons, h t (by simp)]
      simp only [except_ok_bind, foldl_addGate, pure, Except.pure]
      have := ih (s.1 ++ (F t).1, s.2 * (F t).2) fun x hx => h x (by simp [hx])
      simp only [pure, Except.pure, foldl_addGate] at this
      rw [this]
      simp [mul_assoc]
  have := key A ([], 1) h
  rw [List.nil_append, one_mul] at this
  exact this

/-- `trotterize` and `trotterize_w_cRz`, when the result of every term is known -/
theorem trotterBody_fun (cr : Bool × Option ℕ × Bool) (F : ℂ × Circuit → Circuit × ℂ) (A : QubitOperator) (factor : ℂ) (N : ℤ)
    (h : ∀ t ∈ A, exponentiatePauliString (factor * t.1 / (N : ℂ)) t.2 cr.1 cr.2.1 cr.2.2 = .ok (F t)) :
    trotterBody cr A factor N 1 =
      .ok ((List.replicate N.toNat (A.map fun t => (F t).1).flatten).flatten, (A.map fun t => (F t).2).prod ^ N.toNat) := by
  unfold trotterBody
  by_cases h1 : N = 1
  · subst h1
    rw [if_pos ⟨rfl, rfl⟩, trotterLoop_fun cr _ F A (fun t ht => by simpa using h t ht)]
    simp
  · rw [if_neg (by tauto), if_neg (lt_irrefl _), trotterTerms_eq]
    rw [show (List.replicate N.toNat (A.map fun t => (factor * t.1 / (N : ℂ), t.2))).flatten =
      ((List.replicate N.toNat A).flatten.map fun t => (factor * t.1 / (N : ℂ), t.2)) by rw [List.map_flatten, List.map_replicate]]
    let F' : ℂ × Circuit → Circuit × ℂ := fun s => match exponentiatePauliString s.1 s.2 cr.1 cr.2.1 cr.2.2 with
      | .ok r => r
      | .error _ => ([], 1)
    have hF : ∀ t ∈ A, F' (factor * t.1 / (N : ℂ), t.2) = F t := by
      intro t ht
      show (match exponentiatePauliString (factor * t.1 / (N : ℂ)) t.2 cr.1 cr.2.1 cr.2.2 with | .ok r => r | .error _ => ([], 1)) = _
      rw [h t ht]
    rw [trotterLoop_fun cr id F' _ (by
      intro t ht
      obtain ⟨x, hx, rfl⟩ := List.mem_map.1 ht
      obtain ⟨l, hl, hx⟩ := List.mem_flatten.1 hx
      rw [List.eq_of_mem_replicate hl] at hx
      rw [hF x hx]
      exact h x hx)]
    have e1 : ∀ {β : Type} (p : Circuit × ℂ → β), ((List.replicate N.toNat A).flatten.map fun t => (factor * t.1 / (N : ℂ), t.2)).map (fun t => p (F' t)) =
        (List.replicate N.toNat (A.map fun t => p (F t))).flatten := by
      intro β p
      rw [List.map_map, List.map_flatten, List.map_replicate]
      congr 2
      refine List.map_congr_left fun t ht => ?_
      show p (F' (factor * t.1 / (N : ℂ), t.2)) = _
      rw [hF t ht]
    rw [e1 Prod.fst, e1 Prod.snd]
    congr 2
    · generalize (A.map fun t => (F t).1) = l
      generalize N.toNat = k
      induction k with
      | zero => rfl
      | succ k ih => simp [List.replicate_succ, ih]
    · generalize (A.map fun t => (F t).2) = l
      generalize N.toNat = k
      induction k with
      | zero => rfl
      | succ k ih => simp [List.replicate_succ, ih, pow_succ, mul_comm]

theorem offQubit_exp {c : Circuit} (h : c.IPauliString) {a : ℕ} (ha : a ∉ c.map Gate.target) {z : ℂ} {U : Op} (hU : IsExp (z • c.op) U) :
    OffQubit a U := by
  intro m
  refine isExp_commute_invol (pauliString_sq h) hU (circuit_comm_op1 m fun g hg => ?_)
  have h1 : a ≠ g.target := fun e => ha (e ▸ List.mem_map_of_mem hg)
  refine ⟨h1, ?_⟩
  rw [(makeGate_spec (h.gates g hg).2).2.2.1]
  exact h1

/-- one term: the circuit of `W`, controlled on `a`, and a phase, with `ph W = exp(z P)` -/
theorem ctrl_term (z : ℂ) (hz : z.re = 0) (c : Circuit) (h : TrotterTerm c) (a : ℕ) (ha : a ∉ c.map Gate.target) :
    ∃ C ph W, exponentiatePauliString z c true (some a) false = .ok (C, ph) ∧ IsExp (z • c.op) (ph • W) ∧ C.op = ctrlOp a true W ∧
      OffQubit a W ∧ (∀ g ∈ C, (ApiGate g ∧ ExactGate g) ∧ g.target ∈ a :: c.map Gate.target ∧ g.control ∈ a :: c.map Gate.target) ∧
      (c ≠ [] → ph = 1) := by
  obtain ⟨h1, rfl | h2⟩ := h
  · refine ⟨[], Complex.exp z, 1, ?_, isExp_scalar z, (ctrlOp_one _ _).symm, .one a, by simp, fun h => absurd rfl h⟩
    unfold exponentiatePauliString
    rw [if_neg (by rw [hz]; norm_num)]
    rfl
  · obtain ⟨C, U, e, hU, hC, hg⟩ := C39_controlled_partial z hz c h1 h2 a ha false
    refine ⟨C, 1, U, e, by rwa [one_smul], hC, offQubit_exp h1 ha hU, fun g hg' => ⟨⟨(hg g hg').1, expo_exact_ctrl h1 e g hg'⟩, (hg g hg').2⟩, fun _ => rfl⟩

/-- `trotterize_w_cRz` (closed control): the circuit is `W` controlled on the ancilla, and the returned phase times `W` is the Trotter
product of the exponentials of all terms, identity terms included -/
theorem ctrlTrotter_ok (A : QubitOperator) (factor : ℂ) (N : ℤ) (a : ℕ) (hA : ∀ t ∈ A, TrotterTerm t.2 ∧ a ∉ t.2.map Gate.target)
    (hz : ∀ t ∈ A, (factor * t.1).re = 0) :
    ∃ C ph W Vs, trotterizeWCRz A a factor false N 1 = .ok (C, ph) ∧
      List.Forall₂ (fun t V => IsExp ((factor * t.1 / (N : ℂ)) • t.2.op) V) A Vs ∧ C.op = ctrlOp a true W ∧
      ph • W = applyInOrder Vs ^ N.toNat ∧ OffQubit a W ∧
      (∀ g ∈ C, (ApiGate g ∧ ExactGate g) ∧ ∃ t ∈ A, g.target ∈ a :: t.2.map Gate.target ∧ g.control ∈ a :: t.2.map Gate.target) ∧
      ((∀ t ∈ A, t.2 ≠ []) → ph = 1) := by
  classical
  have hz' : ∀ t ∈ A, (factor * t.1 / (N : ℂ)).re = 0 := by
    intro t ht
    rw [show ((N : ℤ) : ℂ) = ((N : ℝ) : ℂ) by push_cast; rfl, Complex.div_ofReal_re, hz t ht, zero_div]
  have hex : ∀ t : ℂ × Circuit, ∃ C ph W, t ∈ A → exponentiatePauliString (factor * t.1 / (N : ℂ)) t.2 true (some a) false = .ok (C, ph) ∧
      IsExp ((factor * t.1 / (N : ℂ)) • t.2.op) (ph • W) ∧ C.op = ctrlOp a true W ∧
      OffQubit a W ∧ (∀ g ∈ C, (ApiGate g ∧ ExactGate g) ∧ g.target ∈ a :: t.2.map Gate.target ∧ g.control ∈ a :: t.2.map Gate.target) ∧
      (t.2 ≠ [] → ph = 1) := by
    intro t
    by_cases ht : t ∈ A
    · obtain ⟨C, ph, W, h⟩ := ctrl_term _ (hz' t ht) t.2 (hA t ht).1 a (hA t ht).2
      exact ⟨C, ph, W, fun _ => h⟩
    · exact ⟨[], 1, 1, fun h => absurd h ht⟩
  choose C ph W h using hex
  have run := trotterBody_fun (true, some a, false) (fun t => (C t, ph t)) A factor N (fun t ht => (h t ht).1)
  have hoff : ∀ B : QubitOperator, (∀ t ∈ B, t ∈ A) → OffQubit a (applyInOrder (B.map W)) ∧
      Circuit.op (B.map C).flatten = ctrlOp a true (applyInOrder (B.map W)) ∧
      (B.map ph).prod • applyInOrder (B.map W) = applyInOrder (B.map fun t => ph t • W t) := by
    intro B
    induction B with
    | nil => intro _; exact ⟨.one a, (ctrlOp_one _ _).symm, by simp [applyInOrder]⟩
    | cons t B ih =>
      intro hB
      obtain ⟨i1, i2, i3⟩ := ih fun x hx => hB x (by simp [hx])
      obtain ⟨j1, j2, j3, j4, j5, j6⟩ := h t (hB t (by simp))
      refine ⟨i1.mul j4, ?_, ?_⟩
      · rw [List.map_cons, List.flatten_cons, Circuit.op_append, i2, j3, ctrlOp_mul i1]; rfl
      · rw [List.map_cons, List.prod_cons, List.map_cons, List.map_cons]
        show (ph t * (B.map ph).prod) • (applyInOrder (B.map W) * W t) = applyInOrder (B.map fun t => ph t • W t) * (ph t • W t)
        rw [← i3, smul_mul_smul_comm, mul_comm (ph t)]
  obtain ⟨k1, k2, k3⟩ := hoff A fun _ h => h
  refine ⟨_, _, applyInOrder (A.map W) ^ N.toNat, A.map fun t => ph t • W t, run, ?_, ?_, ?_, k1.pow _, ?_, ?_⟩
  · rw [List.forall₂_map_right_iff]
    exact List.forall₂_same.2 fun t ht => (h t ht).2.1
  · rw [← ctrlOp_pow k1, ← k2]
    generalize N.toNat = k
    induction k with
    | zero => rfl
    | succ k ih => rw [List.replicate_succ, List.flatten_cons, Circuit.op_append, ih, pow_succ]
  · rw [← smul_pow, k3]
  · intro g hg
    obtain ⟨l, hl, hg⟩ := List.mem_flatten.1 hg
    rw [List.eq_of_mem_replicate hl] at hg
    obtain ⟨l, hl, hg⟩ := List.mem_flatten.1 hg
    obtain ⟨t, ht, rfl⟩ := List.mem_map.1 hl
    exact ⟨((h t ht).2.2.2.2.1 g hg).1, t, ht, ((h t ht).2.2.2.2.1 g hg).2⟩
  · intro hne
    have : A.map (fun t => ph t) = A.map fun _ => (1 : ℂ) := List.map_congr_left fun t ht => (h t ht).2.2.2.2.2 (hne t ht)
    show (A.map fun t => ph t).prod ^ N.toNat = 1
    rw [this]; simp

end QF
