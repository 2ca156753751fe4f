import Verif.Model.SQPool
import Verif.Props.JW
import Verif.Props.QubitOperator
import Verif.Lemmas.SQNormal

/-!
C68: from a pool of second-quantised operators to qubit operators, `SQOpPool.get_qubit_op_pool` and
`SQOpPool.get_qubit_operator`.
-/
namespace QF

open SQOperator (DescSort jwTransform)
open QubitOperator (SortOracle)

/-- the operators `jw_transform` is known to transform correctly (C36): no repeated creation or annihilation index, at most 39
ladder operators per term -/
def SQOpPool.Sound (P : SQOpPool) : Prop := ∀ t ∈ P.terms, t.2.Distinct ∧ ∀ x ∈ t.2, x.2.1.length + x.2.2.length ≤ 39

theorem normal_multCoeffs {Q : QubitOperator} (h : Q.Normal) (z : ℂ) : (Q.multCoeffs z).Normal := by
  refine ⟨?_, ?_⟩
  · intro t ht
    obtain ⟨u, hu, rfl⟩ := List.mem_map.1 ht
    exact h.canonical u hu
  · unfold QubitOperator.multCoeffs
    rw [List.pairwise_map]
    exact h.sorted

theorem orderTerms_normal (so : SortOracle) {Q : QubitOperator} (h : Q.Normal) :
    ∃ B, Q.orderTerms so = .ok B ∧ B.Perm (Q.filter fun t => decide (‖t.1‖ > 1e-12)) := by
  refine ⟨_, by unfold QubitOperator.orderTerms; rw [(simplify_normal h).2, except_ok_bind]; rfl, ?_⟩
  apply filterMap_range_perm
  have := so.isPerm ((Q.filter fun t => decide (‖t.1‖ > 1e-12)).map Prod.snd)
  rwa [List.length_map] at this

theorem child_ok (so : SortOracle) (combine : Bool) {Q : QubitOperator} (h : Q.Normal) :
    (do let c ← Q.simplify combine; c.orderTerms so : Except Exc QubitOperator) = Q.orderTerms so := by
  have e := simplify_normal h
  cases combine
  · rw [e.1, except_ok_bind]
  · rw [e.2, except_ok_bind]
    unfold QubitOperator.orderTerms
    rw [(simplify_normal (Normal.filter h _)).2, e.2, List.filter_filter]
    simp

/-- the child of one pool element under "commuting_grp_lex" -/
theorem groupStep_ok (o : DescSort) (so : SortOracle) (combine qe : Bool) (t : ℂ × SQOperator) (hd : t.2.Distinct)
    (hl : ∀ x ∈ t.2, x.2.1.length + x.2.2.length ≤ 39) :
    ∃ Q R B, jwTransform o t.2 qe = .ok (Q, R) ∧ Q.Normal ∧ (Q.multCoeffs t.1).orderTerms so = .ok B ∧
      B.Perm ((Q.multCoeffs t.1).filter fun t => decide (‖t.1‖ > 1e-12)) ∧
      ∀ parent, SQOpPool.groupStep o so combine qe parent t = .ok (parent ++ B) := by
  obtain ⟨Q, R, _, e1, _, _, nQ, _⟩ := jw_core o t.2 qe hd hl
  obtain ⟨B, e2, p⟩ := orderTerms_normal so (normal_multCoeffs nQ t.1)
  refine ⟨Q, R, B, e1, nQ, e2, p, fun parent => ?_⟩
  have := child_ok so combine (normal_multCoeffs nQ t.1)
  unfold SQOpPool.groupStep
  rw [e1]
  simp only [except_ok_bind, bind, Except.bind, pure, Except.pure] at this ⊢
  revert this
  cases (Q.multCoeffs t.1).simplify combine with
  | error e => intro this; rw [e2] at this; cases this
  | ok c =>
    intro this
    simp only at this ⊢
    rw [this, e2]; simp only [addOp_eq]

/-- what one pool element contributes: the Jordan-Wigner transform of its operator times its coefficient, without the terms of
modulus at most 1e-12 -/
def GroupOf (o : DescSort) (qe : Bool) (t : ℂ × SQOperator) (B : QubitOperator) : Prop :=
  ∃ Q R D, jwTransform o t.2 qe = .ok (Q, R) ∧ t.1 • Q.opLR = B.opLR + QubitOperator.opLR D ∧ QubitOperator.Negligible D ∧
    ((B ++ D).map Prod.snd).Nodup ∧ (∀ u ∈ B, u.2.Canonical ∧ 1e-12 < ‖u.1‖) ∧ (B ++ D).Perm (Q.map fun u => (u.1 * t.1, u.2))

theorem groupOf_ok {o : DescSort} {qe : Bool} {t : ℂ × SQOperator} {Q B : QubitOperator} {R : SQOperator} (e : jwTransform o t.2 qe = .ok (Q, R)) (nQ : Q.Normal)
    (p : B.Perm ((Q.multCoeffs t.1).filter fun t => decide (‖t.1‖ > 1e-12))) : GroupOf o qe t B := by
  let F := Q.multCoeffs t.1
  let D := F.filter fun t => !decide (‖t.1‖ > 1e-12)
  have nF : F.Normal := normal_multCoeffs nQ t.1
  have hp : (B ++ D).Perm F := (p.append_right D).trans (List.filter_append_perm _ F)
  have hnd : ((B ++ D).map Prod.snd).Nodup := ((hp.map Prod.snd).nodup_iff).2 (Normal.nodup nF)
  refine ⟨Q, R, D, e, ?_, ?_, hnd, ?_, hp⟩
  · rw [← opLR_multCoeffs, ← opLR_perm hp, opLR_qappend]
  · refine negligible_of hnd (fun t ht => nF.canonical t (List.mem_filter.1 ht).1) fun t ht => ?_
    simpa using (List.mem_filter.1 ht).2
  · intro u hu
    obtain ⟨h1, h2⟩ := List.mem_filter.1 (p.mem_iff.1 hu)
    exact ⟨nF.canonical u h1, by simpa using h2⟩

/-- C68, order "commuting_grp_lex": the operator is the concatenation, in pool order, of one group per pool element, which is
that element's coefficient times the Jordan-Wigner transform of its operator up to terms of modulus at most 1e-12. -/
theorem C68_commuting_grp_lex (o : DescSort) (so : SortOracle) (P : SQOpPool) (combine qe : Bool) (h : P.Sound) :
    ∃ Bs, P.getQubitOperator o so "commuting_grp_lex" combine qe = .ok Bs.flatten ∧ List.Forall₂ (GroupOf o qe) P.terms Bs := by
  have key : ∀ (l : List (ℂ × SQOperator)) (parent : QubitOperator), (∀ t ∈ l, t.2.Distinct ∧ ∀ x ∈ t.2, x.2.1.length + x.2.2.length ≤ 39) →
      ∃ Bs, l.foldlM (SQOpPool.groupStep o so combine qe) parent = .ok (parent ++ Bs.flatten) ∧ List.Forall₂ (GroupOf o qe) l Bs := by
    intro l
    induction l with
    | nil => intro parent _; exact ⟨[], by simp [pure, Except.pure], .nil⟩
    | cons t l ih =>
      intro parent hl
      obtain ⟨Q, R, B, e1, nQ, e2, p, hs⟩ := groupStep_ok o so combine qe t (hl t (by simp)).1 (hl t (by simp)).2
      obtain ⟨Bs, e3, hf⟩ := ih (parent ++ B) (fun t ht => hl t (by simp [ht]))
      refine ⟨B :: Bs, ?_, .cons (groupOf_ok e1 nQ p) hf⟩
      rw [List.foldlM_cons, hs, except_ok_bind, e3, List.flatten_cons, List.append_assoc]
  obtain ⟨Bs, e, hf⟩ := key P.terms [] h
  refine ⟨Bs, ?_, hf⟩
  unfold SQOpPool.getQubitOperator
  rw [if_neg (by decide), if_pos rfl, e, List.nil_append]

/-- C68: the flag `combine_like_terms` of `get_qubit_operator` has no effect. -/
theorem C68_combine_no_effect (o : DescSort) (so : SortOracle) (P : SQOpPool) (ty : String) (qe : Bool) (h : P.Sound) :
    P.getQubitOperator o so ty false qe = P.getQubitOperator o so ty true qe := by
  unfold SQOpPool.getQubitOperator
  have key : ∀ (l : List (ℂ × SQOperator)) (parent : QubitOperator), (∀ t ∈ l, t.2.Distinct ∧ ∀ x ∈ t.2, x.2.1.length + x.2.2.length ≤ 39) →
      l.foldlM (SQOpPool.groupStep o so false qe) parent = l.foldlM (SQOpPool.groupStep o so true qe) parent := by
    intro l
    induction l with
    | nil => intro parent _; rfl
    | cons t l ih =>
      intro parent hl
      have ht := hl t (by simp)
      obtain ⟨Q, R, B, e1, nQ, e2, p, hs⟩ := groupStep_ok o so false qe t ht.1 ht.2
      obtain ⟨Q', R', B', e1', nQ', e2', p', hs'⟩ := groupStep_ok o so true qe t ht.1 ht.2
      rw [e1] at e1'; cases e1'
      rw [e2] at e2'; cases e2'
      rw [List.foldlM_cons, List.foldlM_cons, hs, hs', except_ok_bind, except_ok_bind]
      exact ih _ (fun t ht => hl t (by simp [ht]))
  rw [key P.terms [] h]

/-- C68, order "unique_lex": the coefficients times the Jordan-Wigner transforms are summed, like terms combined and the terms
of the sum with modulus at most 1e-12 dropped. -/
theorem C68_unique_lex (o : DescSort) (so : SortOracle) (P : SQOpPool) (combine qe : Bool) (h : P.Sound) :
    ∃ Q D cs, P.getQubitOperator o so "unique_lex" combine qe = .ok Q ∧
      List.Forall₂ (fun (t : ℂ × SQOperator) (c : QubitOperator) => ∃ R, jwTransform o t.2 qe = .ok (c, R)) P.terms cs ∧
      (List.zipWith (fun (t : ℂ × SQOperator) (c : QubitOperator) => t.1 • c.opLR) P.terms cs).sum = Q.opLR + QubitOperator.opLR D ∧
      QubitOperator.Negligible D ∧ ((Q ++ D).map Prod.snd).Nodup ∧ ∀ u ∈ Q, u.2.Canonical ∧ 1e-12 < ‖u.1‖ := by
  have key : ∀ (l : List (ℂ × SQOperator)) (parent : QubitOperator), (∀ t ∈ l, t.2.Distinct ∧ ∀ x ∈ t.2, x.2.1.length + x.2.2.length ≤ 39) →
      (∀ u ∈ parent, PauliCircuit u.2) →
      ∃ F cs, l.foldlM (SQOpPool.uniqueStep o qe) parent = .ok F ∧ (∀ u ∈ F, PauliCircuit u.2) ∧
        List.Forall₂ (fun (t : ℂ × SQOperator) (c : QubitOperator) => ∃ R, jwTransform o t.2 qe = .ok (c, R)) l cs ∧
        F.opLR = parent.opLR + (List.zipWith (fun (t : ℂ × SQOperator) (c : QubitOperator) => t.1 • c.opLR) l cs).sum := by
    intro l
    induction l with
    | nil => intro parent _ hp; exact ⟨parent, [], by simp [pure, Except.pure], hp, .nil, by simp⟩
    | cons t l ih =>
      intro parent hl hp
      have ht := hl t (by simp)
      obtain ⟨Q, R, _, e1, _, _, nQ, _⟩ := jw_core o t.2 qe ht.1 ht.2
      obtain ⟨F, cs, e2, hF, hf, hs⟩ := ih (parent ++ Q.multCoeffs t.1) (fun t ht => hl t (by simp [ht])) (by
        intro u hu
        rcases List.mem_append.1 hu with hu | hu
        · exact hp u hu
        · exact ((normal_multCoeffs nQ t.1).canonical u hu).pauli)
      refine ⟨F, Q :: cs, ?_, hF, .cons ⟨R, e1⟩ hf, ?_⟩
      · rw [List.foldlM_cons]
        unfold SQOpPool.uniqueStep at e2 ⊢
        rw [e1]
        simp only [bind, Except.bind, pure, Except.pure, addOp_eq] at e2 ⊢
        exact e2
      · rw [hs, opLR_qappend, opLR_multCoeffs, List.zipWith_cons_cons, List.sum_cons, add_assoc]
  obtain ⟨F, cs, e, hF, hf, hs⟩ := key P.terms [] h (by simp)
  obtain ⟨R, D, e1, e2, nR, cD, nd, hb, hsm, _⟩ := C20_simplify F (isPauli_of_circuits hF)
  obtain ⟨B, e3, p⟩ := orderTerms_normal so nR
  have hfil : (R.filter fun t => decide (‖t.1‖ > 1e-12)) = R := by
    rw [List.filter_eq_self]; intro u hu; simpa using hb u hu
  rw [hfil] at p
  refine ⟨B, D, cs, ?_, hf, ?_, negligible_of nd cD hsm, ?_, ?_⟩
  · unfold SQOpPool.getQubitOperator
    rw [if_pos rfl, e, except_ok_bind, e1, except_ok_bind, e3]
  · rw [opLR_perm p, ← e2, hs]; simp [QubitOperator.opLR]
  · exact (((p.append_right D).map Prod.snd).nodup_iff).2 nd
  · intro u hu
    have := p.mem_iff.1 hu
    exact ⟨nR.canonical u this, hb u this⟩

/-- C68: any other order type raises. -/
theorem C68_invalid_order (o : DescSort) (so : SortOracle) (P : SQOpPool) (ty : String) (combine qe : Bool) (h1 : ty ≠ "unique_lex")
    (h2 : ty ≠ "commuting_grp_lex") : P.getQubitOperator o so ty combine qe = .error .invalidArgument := by
  unfold SQOpPool.getQubitOperator
  rw [if_neg h1, if_neg h2]

/-- C68: `get_qubit_op_pool` returns, element by element, the coefficient with the fermionic Jordan-Wigner transform of the
operator; the operators of the pool are left simplified and nothing else of the pool changes. -/
theorem C68_qubit_op_pool (o : DescSort) (P : SQOpPool) (h : P.Sound) :
    ∃ A P', P.getQubitOpPool o = .ok (A, P') ∧ P'.terms.length = P.terms.length ∧
      List.Forall₂ (fun (t : ℂ × SQOperator) (u : (ℂ × QubitOperator) × (ℂ × SQOperator)) => u.1.1 = t.1 ∧ u.2.1 = t.1 ∧
        SQOperator.simplify o t.2 = .ok u.2.2 ∧ jwTransform o t.2 false = .ok (u.1.2, u.2.2)) P.terms (List.zip A P'.terms) ∧
      A.length = P.terms.length ∧ P' = { P with terms := P'.terms } := by
  have key : ∀ (l : List (ℂ × SQOperator)), (∀ t ∈ l, t.2.Distinct ∧ ∀ x ∈ t.2, x.2.1.length + x.2.2.length ≤ 39) →
      ∃ r, (l.mapM fun t => do
          let (Q, A) ← t.2.jwTransform o false
          return ((t.1, Q), (t.1, A)) : Except Exc (List ((ℂ × QubitOperator) × (ℂ × SQOperator)))) = .ok r ∧
        List.Forall₂ (fun (t : ℂ × SQOperator) (u : (ℂ × QubitOperator) × (ℂ × SQOperator)) => u.1.1 = t.1 ∧ u.2.1 = t.1 ∧
          SQOperator.simplify o t.2 = .ok u.2.2 ∧ jwTransform o t.2 false = .ok (u.1.2, u.2.2)) l r := by
    intro l
    induction l with
    | nil => intro _; exact ⟨[], by simp [pure, Except.pure], .nil⟩
    | cons t l ih =>
      intro hl
      have ht := hl t (by simp)
      obtain ⟨Q, R, _, e1, e2, _⟩ := jw_core o t.2 false ht.1 ht.2
      obtain ⟨r, e3, hf⟩ := ih (fun t ht => hl t (by simp [ht]))
      refine ⟨((t.1, Q), (t.1, R)) :: r, ?_, .cons ⟨rfl, rfl, e2, e1⟩ hf⟩
      rw [List.mapM_cons, e1, e3]
      rfl
  obtain ⟨r, e, hf⟩ := key P.terms h
  refine ⟨r.map Prod.fst, { P with terms := r.map Prod.snd }, ?_, ?_, ?_, ?_, rfl⟩
  · unfold SQOpPool.getQubitOpPool
    erw [e]; rfl
  · simp [hf.length_eq]
  · simp only
    have : List.zip (r.map Prod.fst) (r.map Prod.snd) = r := (List.zip_of_prod rfl rfl).symm
    rw [this]; exact hf
  · simp [hf.length_eq]

/-- a pool with two overlapping excitations meets the hypothesis -/
theorem C68_example : ∀ P : SQOpPool, P.terms = [(0.5, [(1, [3], [1]), (-1, [1], [3])]), (0.25, [(1, [3, 2], [1, 0]), (-1, [1, 0], [3, 2])])] → P.Sound := by
  intro P hP t ht
  rw [hP] at ht
  simp only [List.mem_cons, List.not_mem_nil, or_false] at ht
  refine ⟨?_, ?_⟩ <;> rcases ht with rfl | rfl <;> simp [SQOperator.Distinct]

end QF
