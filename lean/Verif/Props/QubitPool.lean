import Verif.Model.QubitPool
import Verif.Props.JW

/-!
C46 (`QubitOpPool.fill_pool`) and C47 (`join_*`, `square`).
-/
namespace QF
open SQOperator
namespace QubitOpPool

/-! ### C47 -/

theorem mapM_forall2 {α β : Type} (f : α → Except Exc β) (Rl : α → β → Prop) (l : List α) (h : ∀ a ∈ l, ∃ b, f a = .ok b ∧ Rl a b) :
    ∃ r, l.mapM f = .ok r ∧ List.Forall₂ Rl l r := by
  induction l with
  | nil => exact ⟨[], rfl, .nil⟩
  | cons a l ih =>
    obtain ⟨b, hb, rb⟩ := h a (by simp)
    obtain ⟨r, hr, rr⟩ := ih (fun a ha => h a (by simp [ha]))
    refine ⟨b :: r, ?_, .cons rb rr⟩
    rw [List.mapM_cons, hb, except_ok_bind, hr, except_ok_bind]; rfl

/-- all operators of the pool are Pauli operators -/
def IsPauli (P : QubitOpPool) : Prop := ∀ t ∈ P, QubitOperator.IsPauli t.2

/-- product followed by `simplify`: the second simplification changes nothing -/
theorem product_simplify (A B : QubitOperator) (hA : A.IsPauli) (hB : B.IsPauli) :
    ∃ R D, (do (← A.operatorProduct B false true).simplify) = .ok R ∧ A.opLR * B.opLR = R.opLR + QubitOperator.opLR D ∧
      R.Normal ∧ QubitOperator.Negligible D := by
  obtain ⟨R, D1, D2, e, o, _, nR, nD1, nD2, h1, _⟩ := C21_operator_product A B false true hA hB
  have hid : R.simplify = .ok R := by
    have : (A.products B).simplify = .ok R := by
      have e' := e
      unfold QubitOperator.operatorProduct at e'
      simpa using e'
    exact C20_idempotent _ R true (products_isPauli hA hB) this
  refine ⟨R, D2, by rw [e, except_ok_bind, hid], ?_, nR rfl, nD2⟩
  rw [o, h1 rfl]; simp [QubitOperator.opLR]

/-- C47: `join_op_from_right(Op)` keeps every coefficient and replaces each operator by `operator * Op`, in simplified form. -/
theorem C47_join_right (P : QubitOpPool) (q : QubitOperator) (hP : P.IsPauli) (hq : q.IsPauli) :
    ∃ P', P.joinRight q = .ok P' ∧ List.Forall₂ (fun t t' => t'.1 = t.1 ∧ t'.2.Normal ∧
      ∃ D, QubitOperator.Negligible D ∧ t.2.opLR * q.opLR = t'.2.opLR + QubitOperator.opLR D) P P' := by
  apply mapM_forall2
  intro t ht
  obtain ⟨R, D, e, o, n, d⟩ := product_simplify t.2 q (hP t ht) hq
  refine ⟨(t.1, R), ?_, rfl, n, D, d, o⟩
  cases h : t.2.operatorProduct q false true with
  | error x => rw [h] at e; cases e
  | ok S => rw [h, except_ok_bind] at e; simp only [except_ok_bind, e]; rfl

/-- C47: `join_op_from_right_lazy(Op)`: the exact product, one term per pair, canonical strings, nothing merged or dropped. -/
theorem C47_join_right_lazy (P : QubitOpPool) (q : QubitOperator) (hP : P.IsPauli) (hq : q.IsPauli) :
    ∃ P', P.joinRightLazy q = .ok P' ∧ List.Forall₂ (fun t t' => t'.1 = t.1 ∧ t'.2.opLR = t.2.opLR * q.opLR ∧
      (∀ u ∈ t'.2, u.2.Canonical) ∧ t'.2.length = t.2.length * q.length) P P' := by
  apply mapM_forall2
  intro t ht
  obtain ⟨R, D, e, o, c, _, _, h⟩ := product_post t.2 q false (hP t ht) hq
  have e' : t.2.operatorProduct q false false = .ok R := by
    unfold QubitOperator.operatorProduct
    rw [if_neg (by simp)]
    simp only [pure, Except.pure, except_ok_bind]
    exact e
  refine ⟨(t.1, R), by rw [e', except_ok_bind]; rfl, rfl, ?_, c, (h rfl).2⟩
  rw [o, (h rfl).1]; simp [QubitOperator.opLR]

/-- C47: `join_op_from_left(Op)`: each operator becomes `Op * operator`, in simplified form. -/
theorem C47_join_left (P : QubitOpPool) (q : QubitOperator) (hP : P.IsPauli) (hq : q.IsPauli) :
    ∃ P', P.joinLeft q = .ok P' ∧ List.Forall₂ (fun t t' => t'.1 = t.1 ∧ t'.2.Normal ∧
      ∃ D, QubitOperator.Negligible D ∧ q.opLR * t.2.opLR = t'.2.opLR + QubitOperator.opLR D) P P' := by
  apply mapM_forall2
  intro t ht
  obtain ⟨R, D, e, o, n, d⟩ := product_simplify q t.2 hq (hP t ht)
  refine ⟨(t.1, R), ?_, rfl, n, D, d, o⟩
  rw [addOp_eq, List.nil_append]
  cases h : q.operatorProduct t.2 false true with
  | error x => rw [h] at e; cases e
  | ok S => rw [h, except_ok_bind] at e; simp only [h, except_ok_bind, e]; rfl

/-- C47: `join_as_commutator(Op)`: each operator `A` becomes `Op A - A Op`, up to terms dropped by the three simplifications. -/
theorem C47_join_commutator (P : QubitOpPool) (q : QubitOperator) (hP : P.IsPauli) (hq : q.IsPauli) :
    ∃ P', P.joinCommutator q = .ok P' ∧ List.Forall₂ (fun t t' => t'.1 = t.1 ∧ t'.2.Normal ∧
      ∃ D1 D2 D3, QubitOperator.Negligible D1 ∧ QubitOperator.Negligible D2 ∧ QubitOperator.Negligible D3 ∧
        q.opLR * t.2.opLR - t.2.opLR * q.opLR = t'.2.opLR + QubitOperator.opLR D1 + QubitOperator.opLR D2 + QubitOperator.opLR D3) P P' := by
  apply mapM_forall2
  intro t ht
  obtain ⟨R1, _, D1, e1, o1, c1, _, _, d1, z1, _⟩ := C21_operator_product q t.2 false true hq (hP t ht)
  obtain ⟨R2, _, D2, e2, o2, c2, _, _, d2, z2, _⟩ := C21_operator_product t.2 q false true (hP t ht) hq
  have hI : (R1 ++ R2.multCoeffs (-1)).IsPauli := by
    intro u hu
    rcases List.mem_append.1 hu with h | h
    · exact canonical_api (c1 u h)
    · obtain ⟨v, hv, rfl⟩ := List.mem_map.1 h
      exact canonical_api (c2 v hv)
  obtain ⟨R, D3, e3, o3, n3, cD, nd, _, hs, _⟩ := C20_simplify _ hI
  refine ⟨(t.1, R), ?_, rfl, n3, D1, D2.multCoeffs (-1), D3, d1, ?_, negligible_of nd cD hs, ?_⟩
  · simp only [addOp_eq, List.nil_append, e1, e2, e3, except_ok_bind]; rfl
  · refine ⟨?_, ?_⟩
    · have : (D2.multCoeffs (-1)).map Prod.snd = D2.map Prod.snd := by simp [QubitOperator.multCoeffs]
      rw [this]; exact d2.1
    · intro u hu
      obtain ⟨v, hv, rfl⟩ := List.mem_map.1 hu
      have := d2.2 v hv
      exact ⟨this.1, by simpa using this.2⟩
  · rw [opLR_app] at o3
    have hm : ∀ S : QubitOperator, QubitOperator.opLR (S.multCoeffs (-1)) = -QubitOperator.opLR S := by
      intro S
      rw [(C22_mult_coeffs S (-1)).2.1]
      apply Op.ext'; intro ψ I; simp
    rw [hm] at o3 ⊢
    rw [o1, o2, z1 rfl, z2 rfl]
    have h0 : QubitOperator.opLR [] = 0 := by simp [QubitOperator.opLR]
    rw [h0, zero_mul, zero_mul, add_zero, add_zero, show R1.opLR + QubitOperator.opLR D1 - (R2.opLR + QubitOperator.opLR D2) =
      (R1.opLR + -R2.opLR) + QubitOperator.opLR D1 - QubitOperator.opLR D2 by abel, o3]
    abel


/-- the pairs of positions `square` visits, in order: all `(I, J)` row by row, or those with `I ≤ J` -/
def squareIdx (n : ℕ) (upper : Bool) : List (ℕ × ℕ) :=
  ((List.range n).flatMap fun I => (List.range n).map fun J => (I, J)).filter fun p => !upper || decide (p.1 ≤ p.2)

theorem range_filter_le (n I : ℕ) (h : I ≤ n) : ((List.range n).filter fun J => decide (I ≤ J)) = List.range' I (n - I) := by
  induction n with
  | zero => simp
  | succ n ih =>
    rw [List.range_succ, List.filter_append]
    by_cases h' : I ≤ n
    · rw [ih h', show n + 1 - I = (n - I) + 1 by omega, List.range'_concat]
      simp [h', show I + (n - I) = n by omega]
    · have : I = n + 1 := by omega
      subst this
      have h1 : ((List.range n).filter fun J => decide (n + 1 ≤ J)) = [] := by
        rw [List.filter_eq_nil_iff]; intro a ha; have := List.mem_range.1 ha; simp; omega
      rw [h1]; simp

theorem squarePairs_eq (P : QubitOpPool) (upper : Bool) :
    P.squarePairs upper = (squareIdx P.length upper).map fun p => (P.getD p.1 (0, []), P.getD p.2 (0, [])) := by
  unfold squarePairs squareIdx
  have hP : ∀ {β : Type} (f : (ℂ × QubitOperator) → β), P.map f = (List.range P.length).map fun i => f (P.getD i (0, [])) := by
    intro β f
    apply List.ext_getElem (by simp)
    intro i h1 h2
    simp at h1
    simp [h1]
  cases upper with
  | true =>
    simp only [if_true, Bool.not_true, Bool.false_or]
    rw [List.filter_flatMap, List.map_flatMap]
    apply List.flatMap_congr
    intro I hI
    rw [List.filter_map, List.map_map]
    have := range_filter_le P.length I (by have := List.mem_range.1 hI; omega)
    rw [← this]
    rfl
  | false =>
    simp only [Bool.false_eq_true, if_false, Bool.not_false, Bool.true_or, List.filter_true]
    rw [List.map_flatMap, List.flatMap_def, hP, List.flatMap_def]
    congr 1
    apply List.map_congr_left
    intro I _
    rw [hP, List.map_map]
    rfl

/-- C47: `square(upper)` visits all pairs row by row (only `I ≤ J` if asked), and the pair contributes the operator
`A_I A_J` in simplified form with coefficient `conj(c_I) c_J`. -/
theorem C47_square (P : QubitOpPool) (upper : Bool) (hP : P.IsPauli) :
    ∃ P', P.square upper = .ok P' ∧ List.Forall₂ (fun (p : ℕ × ℕ) t' => ∃ tI tJ, P[p.1]? = some tI ∧ P[p.2]? = some tJ ∧
      t'.1 = (starRingEnd ℂ) tI.1 * tJ.1 ∧ t'.2.Normal ∧
      ∃ D, QubitOperator.Negligible D ∧ tI.2.opLR * tJ.2.opLR = t'.2.opLR + QubitOperator.opLR D) (squareIdx P.length upper) P' := by
  unfold square
  rw [squarePairs_eq, List.mapM_map]
  apply mapM_forall2
  intro p hp
  have hp' := (List.mem_filter.1 hp).1
  simp only [List.mem_flatMap, List.mem_map, List.mem_range] at hp'
  obtain ⟨I, hI, J, hJ, rfl⟩ := hp'
  have gI : P[I]? = some (P.getD I (0, [])) := by simp [hI]
  have gJ : P[J]? = some (P.getD J (0, [])) := by simp [hJ]
  obtain ⟨R, D, e, o, n, d⟩ := product_simplify _ _ (hP _ (List.mem_of_getElem? gI)) (hP _ (List.mem_of_getElem? gJ))
  refine ⟨((starRingEnd ℂ) (P.getD I (0, [])).1 * (P.getD J (0, [])).1, R), ?_, _, _, gI, gJ, rfl, n, D, d, o⟩
  unfold Function.comp squarePair
  simp only [addOp_eq, List.nil_append]
  generalize (P.getD I (0, [])) = x at *
  generalize (P.getD J (0, [])) = y at *
  cases h : x.2.operatorProduct y.2 false true with
  | error x => rw [h] at e; cases e
  | ok S => rw [h, except_ok_bind] at e; simp only [except_ok_bind, e]; rfl

/-- C47: with dyadic coefficients (multiples of `2^-m` and `2^-k`, `m + k ≤ 39`) nothing is dropped and the commutator is exact. -/
theorem C47_commutator_exact (P : QubitOpPool) (q : QubitOperator) (hP : P.IsPauli) (hq : q.IsPauli) (m k : ℕ)
    (lP : ∀ t ∈ P, ∀ u ∈ t.2, Lat m u.1) (lq : ∀ t ∈ q, Lat k t.1) (hm : m + k ≤ 39) :
    ∃ P', P.joinCommutator q = .ok P' ∧ List.Forall₂ (fun t t' => t'.1 = t.1 ∧ t'.2.Normal ∧
        t'.2.opLR = q.opLR * t.2.opLR - t.2.opLR * q.opLR) P P' := by
  apply mapM_forall2
  intro t ht
  have prod : ∀ {A B : QubitOperator} {m k : ℕ}, A.IsPauli → B.IsPauli → (∀ t ∈ A, Lat m t.1) → (∀ t ∈ B, Lat k t.1) → m + k ≤ 39 →
      ∃ R, A.operatorProduct B false true = .ok R ∧ R.opLR = A.opLR * B.opLR ∧ R.Normal ∧ ∀ t ∈ R, Lat (m + k) t.1 := by
    intro A B m k hA hB lA lB hm
    obtain ⟨R, e, o, n, l⟩ := QubitOperator.simplify_lat (isPauli_circuits (products_isPauli hA hB)) (m := m + k) (by
      intro t ht
      unfold QubitOperator.products at ht
      obtain ⟨l, hl, ht⟩ := List.mem_flatMap.1 ht
      obtain ⟨r, hr, rfl⟩ := List.mem_map.1 ht
      exact (lA l hl).mul (lB r hr)) hm
    refine ⟨R, ?_, by rw [o, opLR_products], n, l⟩
    unfold QubitOperator.operatorProduct
    simpa using e
  obtain ⟨R1, e1, o1, n1, l1⟩ := prod hq (hP t ht) lq (lP t ht) (by omega)
  obtain ⟨R2, e2, o2, n2, l2⟩ := prod (hP t ht) hq (lP t ht) lq hm
  obtain ⟨R, e3, o3, n3, _⟩ := QubitOperator.simplify_lat (A := R1 ++ R2.multCoeffs (-1)) (m := m + k) (by
      intro u hu
      rcases List.mem_append.1 hu with h | h
      · exact (n1.canonical u h).pauli
      · obtain ⟨v, hv, rfl⟩ := List.mem_map.1 h
        exact (n2.canonical v hv).pauli) (by
      intro u hu
      rcases List.mem_append.1 hu with h | h
      · rw [add_comm]; exact l1 u h
      · obtain ⟨v, hv, rfl⟩ := List.mem_map.1 h
        have : Lat 0 (-1) := ⟨-1, 0, by norm_num⟩
        exact (l2 v hv).mul this) hm
  refine ⟨(t.1, R), ?_, rfl, n3, ?_⟩
  · simp only [addOp_eq, List.nil_append, e1, e2, e3, except_ok_bind]; rfl
  · rw [o3, opLR_app, (C22_mult_coeffs R2 (-1)).2.1, o1, o2]
    apply Op.ext'; intro ψ I; simp [sub_eq_add_neg]

/-- the documented `term -> [term, Op]` is false: the pool `{X0}` joined with `Z0` gives `[Z0, X0]`, not `[X0, Z0]`. -/
theorem C47_refuted_commutator_order : ∃ P q P' t t', IsPauli P ∧ q.IsPauli ∧ P.joinCommutator q = .ok P' ∧ P[0]? = some t ∧ P'[0]? = some t' ∧
    t'.2.opLR ≠ t.2.opLR * q.opLR - q.opLR * t.2.opLR := by
  have hX : QubitOperator.IsPauli [(1, [gX 0])] := by
    intro u hu g hg; rw [List.mem_singleton.1 hu] at hg; rw [List.mem_singleton.1 hg]; exact ⟨.make (make_X 0 0), .inl rfl⟩
  have hZ : QubitOperator.IsPauli [(1, [gZ 0])] := by
    intro u hu g hg; rw [List.mem_singleton.1 hu] at hg; rw [List.mem_singleton.1 hg]; exact ⟨.make (make_Z 0 0), .inr (.inr rfl)⟩
  have hP : IsPauli [((1 : ℂ), [(1, [gX 0])])] := by intro t ht; rw [List.mem_singleton.1 ht]; exact hX
  have l1 : ∀ g, ∀ t ∈ ([(1, [g])] : QubitOperator), Lat 0 t.1 := by
    intro g t ht; rw [List.mem_singleton.1 ht]; exact ⟨1, 0, by norm_num⟩
  obtain ⟨P', e, h⟩ := C47_commutator_exact _ [(1, [gZ 0])] hP hZ 0 0 (by intro t ht; rw [List.mem_singleton.1 ht]; exact l1 _) (l1 _) (by omega)
  obtain ⟨t', r, h1, h2, rfl⟩ := List.forall₂_cons_left_iff.1 h
  refine ⟨_, _, _, _, t', hP, hZ, e, rfl, rfl, ?_⟩
  rw [h1.2.2]
  intro hc
  have hev := congrFun (LinearMap.congr_fun hc (fun i => if i = 0 then 1 else 0)) 1
  have oX : QubitOperator.opLR [(1, [gX 0])] = opX 0 := by simp [QubitOperator.opLR, op_gX]
  have oZ : QubitOperator.opLR [(1, [gZ 0])] = opZ 0 := by simp [QubitOperator.opLR, op_gZ]
  rw [oX, oZ, opZ_opX, opX_opZ] at hev
  have hf : flipBit 1 0 = 0 := by decide
  simp [opY_apply, hf] at hev
  norm_num at hev

/-- a concrete pool meets the hypotheses: `{X0 Y0 / 2 + Z1 / 4}` -/
theorem C47_example : IsPauli [((1 : ℂ), [(0.5, [gX 0, gY 0]), (0.25, [gZ 1])])] := by
  intro t ht; rw [List.mem_singleton.1 ht]; exact C20_example

/-! ### coefficients -/

/-- C47: `set_coeffs` needs one coefficient per operator, replaces the coefficients and leaves the operators -/
theorem C47_set_coeffs (P : QubitOpPool) (zs : List ℂ) :
    (zs.length ≠ P.length → P.setCoeffs zs = .error .invalidArgument) ∧
    (zs.length = P.length → ∃ P', P.setCoeffs zs = .ok P' ∧ P'.map Prod.fst = zs ∧ P'.map Prod.snd = P.map Prod.snd) := by
  refine ⟨fun h => by unfold setCoeffs; rw [if_pos h], fun h => ⟨_, by unfold setCoeffs; rw [if_neg (not_not.2 h)], ?_, ?_⟩⟩
  · rw [List.map_zipWith]
    apply List.ext_getElem <;> simp [h]
  · rw [List.map_zipWith]
    apply List.ext_getElem <;> simp [h]

/-- C47: `set_terms` appends the given terms (it does not clear the pool) -/
theorem C47_set_terms (P : QubitOpPool) (ts : List (ℂ × QubitOperator)) : P.setTerms ts = P ++ ts := by
  unfold setTerms
  induction ts generalizing P with
  | nil => simp
  | cons t ts ih => rw [List.foldl_cons, ih]; simp

/-! ### C46 -/

/-- the digits of `I` in base 4, most significant first, exactly `n` of them -/
def digs : ℕ → ℕ → List Char
  | 0, _ => []
  | n + 1, I => digs n (I / 4) ++ digitStr (I % 4)

theorem digitStr_length {d : ℕ} (h : d < 4) : (digitStr d).length = 1 := by
  interval_cases d <;> rfl

theorem digs_length (n I : ℕ) : (digs n I).length = n := by
  induction n generalizing I with
  | zero => rfl
  | succ n ih => rw [digs, List.length_append, ih, digitStr_length (Nat.mod_lt _ (by norm_num))]

theorem digs_zero (n : ℕ) : digs n 0 = List.replicate n '0' := by
  induction n with
  | zero => rfl
  | succ n ih => rw [digs, Nat.zero_div, ih, List.replicate_succ']; rfl

theorem toBase4_spec : ∀ (n I : ℕ), I < 4 ^ n → 0 < n →
    (toBase4 I).length ≤ n ∧ List.replicate (n - (toBase4 I).length) '0' ++ toBase4 I = digs n I := by
  intro n
  induction n with
  | zero => intro I _ h; omega
  | succ n ih =>
    intro I hI _
    unfold toBase4
    by_cases h : I < 4
    · rw [if_pos h, digitStr_length h]
      refine ⟨by omega, ?_⟩
      rw [digs, Nat.div_eq_of_lt h, Nat.mod_eq_of_lt h, digs_zero]; rfl
    · rw [if_neg h]
      have hn : 0 < n := by
        rcases Nat.eq_zero_or_pos n with rfl | h'
        · norm_num at hI; omega
        · exact h'
      obtain ⟨h1, h2⟩ := ih (I / 4) (by rw [pow_succ] at hI; omega) hn
      rw [List.length_append, digitStr_length (Nat.mod_lt _ (by norm_num))]
      refine ⟨by omega, ?_⟩
      rw [digs, ← h2, Nat.add_sub_add_right, List.append_assoc]

/-- the gate a digit stands for -/
noncomputable def digGate (d k : ℕ) : Circuit := if d = 1 then [gX k] else if d = 2 then [gY k] else if d = 3 then [gZ k] else []

/-- the circuit and Y count of index `I` -/
noncomputable def circ : ℕ → ℕ → Circuit
  | 0, _ => []
  | n + 1, I => circ n (I / 4) ++ digGate (I % 4) n

noncomputable def nY : ℕ → ℕ → ℕ
  | 0, _ => 0
  | n + 1, I => nY n (I / 4) + if I % 4 = 2 then 1 else 0

/-- the body of the loop over qubits -/
noncomputable def poolStep (str : List Char) (s : Circuit × ℕ) (k : ℕ) : Except Exc (Circuit × ℕ) := do
  let c := (str.drop k).take 1
  let ny := if c = ['2'] then s.2 + 1 else s.2
  if c ≠ ['0'] then
    let g ← makeGate (paulis c) k k 0
    return (s.1 ++ [g], ny)
  else return (s.1, ny)

theorem poolStep_spec (str : List Char) (s : Circuit × ℕ) (k d : ℕ) (hd : d < 4) (h : (str.drop k).take 1 = digitStr d) :
    poolStep str s k = .ok (s.1 ++ digGate d k, s.2 + if d = 2 then 1 else 0) := by
  unfold poolStep
  simp only [h]
  interval_cases d
  · simp [digitStr, digGate]; rfl
  · simp only [digitStr, digGate, paulis]
    simp [make_X]
  · simp only [digitStr, digGate, paulis]
    simp [make_Y]
  · simp only [digitStr, digGate, paulis]
    simp [make_Z]

theorem pool_loop (n : ℕ) : ∀ (I : ℕ) (tail : List Char),
    (List.range n).foldlM (poolStep (digs n I ++ tail)) ([], 0) = .ok (circ n I, nY n I) := by
  induction n with
  | zero => intro I tail; rfl
  | succ n ih =>
    intro I tail
    rw [List.range_succ, List.foldlM_append, digs, List.append_assoc, ih, except_ok_bind, List.foldlM_cons]
    have hd : I % 4 < 4 := Nat.mod_lt _ (by norm_num)
    rw [poolStep_spec _ _ n (I % 4) hd]
    · rfl
    · rw [List.drop_append_of_le_length (by rw [digs_length]), List.drop_of_length_le (by rw [digs_length]), List.nil_append,
        List.take_append_of_le_length (by rw [digitStr_length hd]), List.take_of_length_le (by rw [digitStr_length hd])]

theorem poolCircuit_eq {n I : ℕ} (hI : I < 4 ^ n) (hn : 0 < n) : poolCircuit n I = .ok (circ n I, nY n I) := by
  obtain ⟨h1, h2⟩ := toBase4_spec n I hI hn
  unfold poolCircuit pauliIdxStr
  rw [if_neg (by omega), except_ok_bind, h2, if_neg (by rw [digs_length]; simp)]
  have := pool_loop n I []
  rw [List.append_nil] at this
  exact this

theorem digGate_target {d k : ℕ} : ∀ g ∈ digGate d k, PauliGate g ∧ g.target = k := by
  intro g hg
  unfold digGate at hg
  split_ifs at hg
  all_goals first
    | (rw [List.mem_singleton.1 hg]; first | exact ⟨pauliGate_X k, rfl⟩ | exact ⟨pauliGate_Y k, rfl⟩ | exact ⟨pauliGate_Z k, rfl⟩)
    | simp at hg

theorem circ_spec (n : ℕ) : ∀ I, (circ n I).Canonical ∧ ∀ g ∈ circ n I, g.target < n := by
  induction n with
  | zero => intro I; exact ⟨canonical_iff.2 ⟨by simp [circ], by simp [circ]⟩, by simp [circ]⟩
  | succ n ih =>
    intro I
    obtain ⟨h1, h2⟩ := ih (I / 4)
    obtain ⟨c1, c2⟩ := canonical_iff.1 h1
    refine ⟨canonical_iff.2 ⟨?_, ?_⟩, ?_⟩
    · intro g hg
      rcases List.mem_append.1 hg with h | h
      · exact c1 g h
      · exact (digGate_target g h).1
    · rw [circ, List.pairwise_append]
      refine ⟨c2, ?_, ?_⟩
      · unfold digGate; split_ifs <;> simp
      · intro a ha b hb
        rw [(digGate_target b hb).2]; exact h2 a ha
    · intro g hg
      rcases List.mem_append.1 hg with h | h
      · exact (h2 g h).trans (Nat.lt_succ_self n)
      · rw [(digGate_target g h).2]; exact Nat.lt_succ_self n

theorem digGate_inj {d e k : ℕ} (hd : d < 4) (he : e < 4) (h : digGate d k = digGate e k) : d = e := by
  have hl : (digGate d k).map Gate.label = (digGate e k).map Gate.label := by rw [h]
  interval_cases d <;> interval_cases e <;> first | rfl | (exfalso; revert hl; simp [digGate, gX, gY, gZ])

theorem circ_inj (n : ℕ) : ∀ I J, I < 4 ^ n → J < 4 ^ n → circ n I = circ n J → I = J := by
  induction n with
  | zero => intro I J hI hJ _; simp at hI hJ; omega
  | succ n ih =>
    intro I J hI hJ h
    rw [circ, circ] at h
    have f1 : ∀ I, (circ n (I / 4) ++ digGate (I % 4) n).filter (fun g => decide (g.target < n)) = circ n (I / 4) := by
      intro I
      rw [List.filter_append, List.filter_eq_self.2 (by intro g hg; simpa using (circ_spec n _).2 g hg),
        List.filter_eq_nil_iff.2 (by intro g hg; rw [(digGate_target g hg).2]; simp), List.append_nil]
    have e1 : circ n (I / 4) = circ n (J / 4) := by rw [← f1 I, ← f1 J, h]
    have e2 : digGate (I % 4) n = digGate (J % 4) n := by rw [e1] at h; exact List.append_cancel_left h
    have q := ih _ _ (by rw [pow_succ] at hI; omega) (by rw [pow_succ] at hJ; omega) e1
    have r := digGate_inj (Nat.mod_lt _ (by norm_num)) (Nat.mod_lt _ (by norm_num)) e2
    omega

theorem circ_surj (n : ℕ) : ∀ c : Circuit, c.Canonical → (∀ g ∈ c, g.target < n) → ∃ I < 4 ^ n, circ n I = c := by
  induction n with
  | zero =>
    intro c _ h
    cases c with
    | nil => exact ⟨0, by simp, rfl⟩
    | cons g c => exact absurd (h g (by simp)) (by omega)
  | succ n ih =>
    intro c hc ht
    obtain ⟨c1, c2⟩ := canonical_iff.1 hc
    rcases List.eq_nil_or_concat c with rfl | ⟨d, g, rfl⟩
    · obtain ⟨I, hI, e⟩ := ih [] hc (by simp)
      refine ⟨4 * I, by rw [pow_succ]; omega, ?_⟩
      rw [circ, show 4 * I / 4 = I by omega, e, show 4 * I % 4 = 0 by omega]; rfl
    · rw [List.concat_eq_append] at *
      rw [List.pairwise_append] at c2
      have hd : ∀ h ∈ d, h.target < g.target := fun h hh => c2.2.2 h hh g (by simp)
      have hdc : Circuit.Canonical d := canonical_iff.2 ⟨fun h hh => c1 h (by simp [hh]), c2.1⟩
      by_cases hg : g.target < n
      · obtain ⟨I, hI, e⟩ := ih (d ++ [g]) hc (by
          intro h hh
          rcases List.mem_append.1 hh with h' | h'
          · exact (hd h h').trans hg
          · rw [List.mem_singleton.1 h']; exact hg)
        refine ⟨4 * I, by rw [pow_succ]; omega, ?_⟩
        rw [circ, show 4 * I / 4 = I by omega, e, show 4 * I % 4 = 0 by omega]; simp [digGate]
      · have hgn : g.target = n := by have := ht g (by simp); omega
        obtain ⟨I, hI, e⟩ := ih d hdc (fun h hh => by have := hd h hh; omega)
        have hp := c1 g (by simp)
        obtain ⟨dg, h1, h2, h3⟩ : ∃ dg, dg < 4 ∧ 0 < dg ∧ digGate dg n = [g] := by
          have hm := hp.make
          rw [hgn] at hm
          rcases hp.letter with hl | hl | hl <;> rw [hl] at hm
          · rw [make_X] at hm; cases hm; exact ⟨1, by omega, by omega, rfl⟩
          · rw [make_Y] at hm; cases hm; exact ⟨2, by omega, by omega, rfl⟩
          · rw [make_Z] at hm; cases hm; exact ⟨3, by omega, by omega, rfl⟩
        refine ⟨4 * I + dg, by rw [pow_succ]; omega, ?_⟩
        rw [circ, show (4 * I + dg) / 4 = I by omega, e, show (4 * I + dg) % 4 = dg by omega, h3]

theorem nY_eq (n : ℕ) : ∀ I, nY n I = (circ n I).countP fun g => decide (g.label = "Y") := by
  induction n with
  | zero => intro I; rfl
  | succ n ih =>
    intro I
    rw [nY, circ, List.countP_append, ← ih]
    congr 1
    have hd : I % 4 < 4 := Nat.mod_lt _ (by norm_num)
    generalize I % 4 = d at *
    interval_cases d <;> simp [digGate, gX, gY, gZ]

theorem fill_fold (f : ℕ → Except Exc (Circuit × ℕ)) (g : ℕ → Circuit × ℕ) (p : ℕ → Bool)
    (step : QubitOpPool → ℕ → Except Exc QubitOpPool)
    (hs : ∀ P I, step P I = do let a ← f I; (if p a.2 then .ok (P ++ [(1, [(1, a.1)])]) else .ok P)) :
    ∀ (l : List ℕ) (P : QubitOpPool), (∀ I ∈ l, f I = .ok (g I)) →
      l.foldlM step P = .ok (P ++ ((l.filter fun I => p (g I).2).map fun I => (1, [(1, (g I).1)]))) := by
  intro l
  induction l with
  | nil => intro P _; simp [pure, Except.pure]
  | cons I l ih =>
    intro P h
    rw [List.foldlM_cons, hs, h I (by simp), except_ok_bind]
    by_cases hp : p (g I).2 = true
    · rw [if_pos hp, except_ok_bind, ih _ (fun J hJ => h J (by simp [hJ])), List.filter_cons_of_pos (by simpa using hp)]; simp
    · rw [if_neg hp, except_ok_bind, ih _ (fun J hJ => h J (by simp [hJ])), List.filter_cons_of_neg (by simpa using hp)]

/-- the pool entry of a Pauli string: coefficient 1, operator `1 * string` -/
def entry (c : Circuit) : ℂ × QubitOperator := (1, [(1, c)])

theorem fill_facts (n : ℕ) (p : ℕ → Bool) :
    let new := ((List.range (4 ^ n)).filter fun I => p (nY n I)).map fun I => ((1 : ℂ), [((1 : ℂ), circ n I)])
    new.Nodup ∧ ∀ t, t ∈ new ↔ ∃ c : Circuit, c.Canonical ∧ (∀ g ∈ c, g.target < n) ∧ p (c.countP fun g => decide (g.label = "Y")) = true ∧ t = entry c := by
  intro new
  refine ⟨?_, ?_⟩
  · apply List.Nodup.map_on _ (List.nodup_range.filter _)
    intro I hI J hJ h
    have hI := List.mem_range.1 (List.mem_filter.1 hI).1
    have hJ := List.mem_range.1 (List.mem_filter.1 hJ).1
    simp only [Prod.mk.injEq, List.cons.injEq, true_and, and_true] at h
    exact circ_inj n I J hI hJ h
  · intro t
    constructor
    · intro ht
      obtain ⟨I, hI, rfl⟩ := List.mem_map.1 ht
      exact ⟨circ n I, (circ_spec n I).1, (circ_spec n I).2, by rw [← nY_eq]; exact (List.mem_filter.1 hI).2, rfl⟩
    · rintro ⟨c, h1, h2, h3, rfl⟩
      obtain ⟨I, hI, e⟩ := circ_surj n c h1 h2
      refine List.mem_map.2 ⟨I, List.mem_filter.2 ⟨List.mem_range.2 hI, ?_⟩, by rw [e]; rfl⟩
      rw [nY_eq, e]; exact h3

theorem four_pow_lt {n : ℕ} (h : n ≤ 15) : ¬ 2 ^ 31 ≤ 4 ^ n := by
  have : 4 ^ n ≤ 4 ^ 15 := Nat.pow_le_pow_right (by norm_num) h
  norm_num at this ⊢; omega

/-- C46: for 1 to 15 qubits `fill_pool("complete_qubit", n)` appends every Pauli string on `n` qubits exactly once, `4^n` of
them, each with coefficient 1. -/
theorem C46_complete_qubit (P : QubitOpPool) (n : ℕ) (hn : 0 < n) (hn15 : n ≤ 15) :
    ∃ new, P.fillPool "complete_qubit" n = .ok (P ++ new) ∧ new.length = 4 ^ n ∧ new.Nodup ∧
      ∀ t, t ∈ new ↔ ∃ c : Circuit, c.Canonical ∧ (∀ g ∈ c, g.target < n) ∧ t = entry c := by
  obtain ⟨h1, h2⟩ := fill_facts n (fun _ => true)
  refine ⟨_, ?_, ?_, h1, fun t => (h2 t).trans (by simp)⟩
  · unfold fillPool
    rw [if_pos rfl, if_neg (four_pow_lt hn15)]
    refine fill_fold (poolCircuit n) (fun I => (circ n I, nY n I)) (fun _ => true) _ ?_ _ _ ?_
    · intro P I
      cases poolCircuit n I <;> rfl
    · intro I hI; exact poolCircuit_eq (List.mem_range.1 hI) hn
  · simp

/-- C46: `fill_pool("cqoy", n)` appends exactly the Pauli strings with an odd number of Y, each once. -/
theorem C46_cqoy (P : QubitOpPool) (n : ℕ) (hn : 0 < n) (hn15 : n ≤ 15) :
    ∃ new, P.fillPool "cqoy" n = .ok (P ++ new) ∧ new.Nodup ∧
      ∀ t, t ∈ new ↔ ∃ c : Circuit, c.Canonical ∧ (∀ g ∈ c, g.target < n) ∧ Odd (c.countP fun g => decide (g.label = "Y")) ∧ t = entry c := by
  obtain ⟨h1, h2⟩ := fill_facts n (fun y => decide (y % 2 ≠ 0))
  refine ⟨_, ?_, h1, fun t => (h2 t).trans (by simp only [decide_eq_true_eq, Nat.odd_iff, Nat.mod_two_ne_zero])⟩
  unfold fillPool
  rw [if_neg (by decide), if_pos rfl, if_neg (four_pow_lt hn15)]
  refine fill_fold (poolCircuit n) (fun I => (circ n I, nY n I)) (fun y => decide (y % 2 ≠ 0)) _ ?_ _ _ ?_
  · intro P I
    cases poolCircuit n I with
    | error x => rfl
    | ok a =>
      simp only [except_ok_bind, decide_eq_true_eq]
      rfl
  · intro I hI; exact poolCircuit_eq (List.mem_range.1 hI) hn

/-- C46 (finding): with no qubits the string `"0"` is longer than `nqb`, the unsigned difference wraps and the padding loop does not end. -/
theorem C46_zero_qubits_diverges (P : QubitOpPool) : P.fillPool "complete_qubit" 0 = .error .diverges ∧ P.fillPool "cqoy" 0 = .error .diverges := by
  have h : poolCircuit 0 0 = .error .diverges := by
    unfold poolCircuit pauliIdxStr toBase4; rfl
  constructor <;> unfold fillPool
  · rw [if_pos rfl, if_neg (by norm_num), pow_zero, show List.range 1 = [0] from rfl, List.foldlM_cons, h]; rfl
  · rw [if_neg (by decide), if_pos rfl, if_neg (by norm_num), pow_zero, show List.range 1 = [0] from rfl, List.foldlM_cons, h]; rfl

/-- C46 (finding): from 16 qubits on the number of strings does not fit in an `int`; an unknown type raises. -/
theorem C46_large_and_invalid (P : QubitOpPool) (n : ℕ) :
    (16 ≤ n → P.fillPool "complete_qubit" n = .error .undefinedBehaviour ∧ P.fillPool "cqoy" n = .error .undefinedBehaviour) ∧
    ∀ s, s ≠ "complete_qubit" → s ≠ "cqoy" → P.fillPool s n = .error .invalidArgument := by
  refine ⟨fun h => ?_, fun s h1 h2 => by unfold fillPool; rw [if_neg h1, if_neg h2]⟩
  have : 2 ^ 31 ≤ 4 ^ n := le_trans (by norm_num) (Nat.pow_le_pow_right (by norm_num) h : 4 ^ 16 ≤ 4 ^ n)
  unfold fillPool
  exact ⟨by rw [if_pos rfl, if_pos this], by rw [if_neg (by decide), if_pos rfl, if_pos this]⟩

/-- a concrete member: `X0 Y2` is in the 3-qubit pools -/
theorem C46_example : Circuit.Canonical [gX 0, gY 2] ∧ (∀ g ∈ ([gX 0, gY 2] : Circuit), g.target < 3) ∧
    Odd (([gX 0, gY 2] : Circuit).countP fun g => decide (g.label = "Y")) := by
  refine ⟨canonical_iff.2 ⟨?_, ?_⟩, ?_, ?_⟩
  · intro g hg
    simp only [List.mem_cons, List.not_mem_nil, or_false] at hg
    rcases hg with rfl | rfl
    · exact pauliGate_X 0
    · exact pauliGate_Y 2
  · simp [gX, gY]
  · intro g hg
    simp only [List.mem_cons, List.not_mem_nil, or_false] at hg
    rcases hg with rfl | rfl <;> simp [gX, gY]
  · simp [gX, gY]

end QubitOpPool
end QF
