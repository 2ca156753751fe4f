import Verif.Lemmas.Fermion
import Verif.Lemmas.PauliIndep
import Verif.Lemmas.Measure
import Verif.Props.QubitOperator

/-! Jordan-Wigner: the qubit operators built by `jw_helper` denote products of ladder operators. -/
namespace QF

/-! ### coefficients in `2^{-m} ℤ[i]` -/

def Lat (m : ℕ) (c : ℂ) : Prop := ∃ a b : ℤ, c * 2 ^ m = a + b * Complex.I

namespace Lat
theorem add {m : ℕ} {c d : ℂ} : Lat m c → Lat m d → Lat m (c + d) := by
  rintro ⟨a, b, h⟩ ⟨a', b', h'⟩
  refine ⟨a + a', b + b', ?_⟩
  rw [add_mul, h, h']; push_cast; ring

theorem mul {m k : ℕ} {c d : ℂ} : Lat m c → Lat k d → Lat (m + k) (c * d) := by
  rintro ⟨a, b, h⟩ ⟨a', b', h'⟩
  refine ⟨a * a' - b * b', a * b' + b * a', ?_⟩
  have : c * d * 2 ^ (m + k) = (c * 2 ^ m) * (d * 2 ^ k) := by rw [pow_add]; ring
  rw [this, h, h']; push_cast
  linear_combination (b : ℂ) * b' * Complex.I_mul_I

theorem unit4 {k : ℂ} (h : IsUnit4 k) : Lat 0 k := by
  rcases h with rfl | rfl | rfl | rfl
  · exact ⟨1, 0, by simp⟩
  · exact ⟨-1, 0, by simp⟩
  · exact ⟨0, 1, by simp⟩
  · exact ⟨0, -1, by simp⟩

theorem half : Lat 1 0.5 := ⟨1, 0, by norm_num⟩
theorem half_I : Lat 1 (0.5 * Complex.I) := ⟨0, 1, by push_cast; ring⟩
theorem neg_half_I : Lat 1 (-(0.5 * Complex.I)) := ⟨0, -1, by push_cast; ring⟩

/-- nothing but 0 is dropped up to `m = 39` -/
theorem eq_zero {m : ℕ} {c : ℂ} (h : Lat m c) (hm : m ≤ 39) (hc : ‖c‖ ≤ 1e-12) : c = 0 := by
  obtain ⟨a, b, h⟩ := h
  have hn : ‖c‖ * 2 ^ m = ‖((a : ℂ) + b * Complex.I)‖ := by rw [← h, norm_mul, norm_pow]; norm_num
  have hs : ‖((a : ℂ) + b * Complex.I)‖ ^ 2 = ((a ^ 2 + b ^ 2 : ℤ) : ℝ) := by
    have := Complex.sq_norm ((a : ℂ) + b * Complex.I)
    rw [this, Complex.normSq_apply]
    simp; ring
  have h2 : (2 : ℝ) ^ m ≤ 2 ^ 39 := pow_le_pow_right₀ (by norm_num) hm
  have hlt : ‖c‖ * 2 ^ m < 1 := by
    calc ‖c‖ * 2 ^ m ≤ 1e-12 * 2 ^ 39 := by
          apply mul_le_mul hc h2 (by positivity) (by norm_num)
      _ < 1 := by norm_num
  have h0 : ‖c‖ * 2 ^ m ≥ 0 := by positivity
  have hsq : ((a ^ 2 + b ^ 2 : ℤ) : ℝ) < 1 := by
    rw [← hs, ← hn]; nlinarith
  have hi : a ^ 2 + b ^ 2 < 1 := by exact_mod_cast hsq
  have ha : a = 0 := by nlinarith [sq_nonneg a, sq_nonneg b]
  have hb : b = 0 := by nlinarith [sq_nonneg a, sq_nonneg b]
  subst ha; subst hb
  have : c * 2 ^ m = 0 := by rw [h]; simp
  rcases mul_eq_zero.1 this with h | h
  · exact h
  · exact absurd h (pow_ne_zero _ two_ne_zero)
end Lat

/-- coefficients among which `simplify` drops nothing but zeros -/
structure Grid (S : ℂ → Prop) : Prop where
  add : ∀ a b, S a → S b → S (a + b)
  unit : ∀ k a, IsUnit4 k → S a → S (a * k)
  gap : ∀ c, S c → ‖c‖ ≤ 1e-12 → c = 0

theorem Lat.grid {m : ℕ} (hm : m ≤ 39) : Grid (Lat m) :=
  ⟨fun _ _ => Lat.add, fun _ _ hk ha => ha.mul (Lat.unit4 hk), fun _ h hc => h.eq_zero hm hc⟩

namespace QubitOperator

theorem mapAdd_grid {S : ℂ → Prop} (hS : Grid S) {k : Circuit} {v : ℂ} (hv : S v) : ∀ {l : List (Circuit × ℂ)}, (∀ e ∈ l, S e.2) →
    ∀ e ∈ mapAdd k v l, S e.2 := by
  intro l
  induction l with
  | nil => intro _ e he; simp only [mapAdd, List.mem_singleton] at he; rw [he]; exact hv
  | cons x l ih =>
    intro hl e he
    obtain ⟨k', v'⟩ := x
    unfold mapAdd at he
    split_ifs at he
    · rcases List.mem_cons.1 he with rfl | he
      · exact hv
      · exact hl e he
    · rcases List.mem_cons.1 he with rfl | he
      · exact hl _ (by simp)
      · exact ih (fun e he => hl e (by simp [he])) e he
    · rcases List.mem_cons.1 he with rfl | he
      · exact hS.add _ _ (hl (k', v') (by simp)) hv
      · exact hl e (by simp [he])

theorem buildMap_grid {S : ℂ → Prop} (hS : Grid S) {A : QubitOperator} (hA : ∀ t ∈ A, S t.1) : ∀ e ∈ buildMap A, S e.2 := by
  unfold buildMap
  have : ∀ (A : QubitOperator) (l : List (Circuit × ℂ)), (∀ t ∈ A, S t.1) → (∀ e ∈ l, S e.2) →
      ∀ e ∈ A.foldl (fun m t => mapAdd t.2 t.1 m) l, S e.2 := by
    intro A
    induction A with
    | nil => intro l _ hl; exact hl
    | cons t A ih =>
      intro l hA hl
      exact ih _ (fun t ht => hA t (by simp [ht])) (mapAdd_grid hS (hA t (by simp)) hl)
  exact this A [] hA (by simp)

theorem simplify_grid {S : ℂ → Prop} (hS : Grid S) {A : QubitOperator} (hA : ∀ t ∈ A, PauliCircuit t.2) (hl : ∀ t ∈ A, S t.1) :
    ∃ R, A.simplify = .ok R ∧ R.opLR = A.opLR ∧ R.Normal ∧ ∀ t ∈ R, S t.1 := by
  obtain ⟨F, e1, nF, oF, -, e2⟩ := simplify_full hA
  obtain ⟨A', ea, hf⟩ := canonicalOrder_ok hA
  have hl' : ∀ t ∈ A', S t.1 := by
    clear ea e1 e2 oF
    induction hf with
    | nil => simp
    | cons h1 _ ih =>
      obtain ⟨k, hk, _, h2, _⟩ := h1
      intro t ht
      rcases List.mem_cons.1 ht with rfl | ht
      · rw [h2]; exact hS.unit _ _ hk (hl _ (by simp))
      · exact ih (fun t ht => hA t (by simp [ht])) (fun t ht => hl t (by simp [ht])) t ht
  have hF : ∀ t ∈ F, S t.1 := by
    unfold simplify at e1
    rw [ea] at e1
    simp only [except_ok_bind, pure, Except.pure, Bool.false_eq_true, if_false] at e1
    cases e1
    intro t ht
    obtain ⟨e, he, rfl⟩ := List.mem_map.1 ht
    exact buildMap_grid hS hl' e he
  refine ⟨_, e2, ?_, Normal.filter nF _, fun t ht => hF t (List.mem_filter.1 ht).1⟩
  rw [← oF]
  have := filter_split F (fun t => decide (‖t.1‖ > 1e-12))
  rw [this]
  symm
  have hz : (QubitOperator.opLR (F.filter (fun t => !decide (‖t.1‖ > 1e-12)))) = 0 := by
    unfold QubitOperator.opLR
    apply List.sum_eq_zero
    intro x hx
    obtain ⟨t, ht, rfl⟩ := List.mem_map.1 hx
    obtain ⟨h1, h2⟩ := List.mem_filter.1 ht
    have : t.1 = 0 := hS.gap _ (hF t h1) (by simpa using h2)
    rw [this, zero_smul]
  rw [hz, add_zero]

theorem simplify_lat {m : ℕ} {A : QubitOperator} (hA : ∀ t ∈ A, PauliCircuit t.2) (hl : ∀ t ∈ A, Lat m t.1) (hm : m ≤ 39) :
    ∃ R, A.simplify = .ok R ∧ R.opLR = A.opLR ∧ R.Normal ∧ ∀ t ∈ R, Lat m t.1 := simplify_grid (Lat.grid hm) hA hl

end QubitOperator

/-! ### one ladder operator -/

/-- the ladder operator meant by `jw_transform`: with or without the sign -/
def lad (qe b : Bool) (p : ℕ) : Op := if qe then qladder b p else ladder b p

theorem opLR_append (c d : Circuit) : Circuit.opLR (c ++ d) = c.opLR * d.opLR := by
  simp [Circuit.opLR]

theorem zString_apply_lt (p : ℕ) (ψ : St) (I : ℕ) : Circuit.opLR ((List.range p).map gZ) ψ I = fsign I p * ψ I := by
  induction p generalizing ψ with
  | zero => simp [Circuit.opLR, fsign_zero]
  | succ p ih =>
    rw [List.range_succ, List.map_append, opLR_append, Module.End.mul_apply, ih, fsign_succ]
    simp only [Circuit.opLR, List.map_cons, List.map_nil, List.prod_cons, List.prod_nil, mul_one, op_gZ, opZ_apply]
    ring

theorem zGates_ok (p : ℕ) (qe : Bool) : SQOperator.zGates p qe = .ok (if qe then [] else (List.range p).map gZ) := by
  unfold SQOperator.zGates
  cases qe
  · rw [if_neg (by simp), if_neg (by simp)]
    exact mapM_ok _ gZ _ (fun k _ => make_Z k 0)
  · rfl

/-- the two-term operator built for one ladder operator -/
noncomputable def ladQ (qe b : Bool) (p : ℕ) : QubitOperator :=
  [(0.5, (if qe then [] else (List.range p).map gZ) ++ [gX p]),
   (if b then -(0.5 * Complex.I) else 0.5 * Complex.I, (if qe then [] else (List.range p).map gZ) ++ [gY p])]

theorem jwLadder_ok (b qe : Bool) (p : ℕ) : SQOperator.jwLadder b qe p = .ok (ladQ qe b p) := by
  unfold SQOperator.jwLadder
  rw [zGates_ok, make_X, make_Y]
  rfl

theorem ladQ_opLR (qe b : Bool) (p : ℕ) : (ladQ qe b p).opLR = lad qe b p := by
  apply Op.ext'
  intro ψ I
  simp only [ladQ, QubitOperator.opLR, List.map_cons, List.map_nil, List.sum_cons, List.sum_nil, add_zero, opLR_append]
  rw [LinearMap.add_apply, Pi.add_apply, LinearMap.smul_apply, LinearMap.smul_apply, Pi.smul_apply, Pi.smul_apply]
  have hx : Circuit.opLR [gX p] = opX p := by simp [Circuit.opLR]
  have hy : Circuit.opLR [gY p] = opY p := by simp [Circuit.opLR]
  rw [hx, hy, Module.End.mul_apply, Module.End.mul_apply]
  cases qe
  · simp only [Bool.false_eq_true, if_false, zString_apply_lt, lad, ladder_apply, opX_apply, opY_apply, smul_eq_mul]
    have hI := Complex.I_mul_I
    generalize fsign I p = f; generalize ψ (flipBit I p) = a
    rcases I.testBit p <;> cases b <;> simp <;> linear_combination (norm := (ring_nf; norm_num)) (0 : ℂ) * hI
  · have h1 : Circuit.opLR [] = 1 := rfl
    simp only [if_true, h1, Module.End.one_apply, lad, qladder_apply, opX_apply, opY_apply, smul_eq_mul]
    generalize ψ (flipBit I p) = a
    rcases I.testBit p <;> cases b <;> simp <;> ring_nf <;> norm_num <;> ring

theorem ladQ_pauli (qe b : Bool) (p : ℕ) : ∀ t ∈ ladQ qe b p, PauliCircuit t.2 := by
  have hz : ∀ g ∈ (if qe then [] else (List.range p).map gZ), PauliGate g := by
    intro g hg
    cases qe
    · simp only [Bool.false_eq_true, if_false] at hg
      obtain ⟨k, _, rfl⟩ := List.mem_map.1 hg
      exact pauliGate_Z k
    · simp at hg
  intro t ht g hg
  simp only [ladQ, List.mem_cons, List.not_mem_nil, or_false] at ht
  rcases ht with rfl | rfl
  · rcases List.mem_append.1 hg with h | h
    · exact hz g h
    · rw [List.mem_singleton.1 h]; exact pauliGate_X p
  · rcases List.mem_append.1 hg with h | h
    · exact hz g h
    · rw [List.mem_singleton.1 h]; exact pauliGate_Y p

theorem ladQ_lat (qe b : Bool) (p : ℕ) : ∀ t ∈ ladQ qe b p, Lat 1 t.1 := by
  intro t ht
  simp only [ladQ, List.mem_cons, List.not_mem_nil, or_false] at ht
  rcases ht with rfl | rfl
  · exact Lat.half
  · cases b
    · exact Lat.half_I
    · exact Lat.neg_half_I

/-! ### products of ladder operators -/

structure JInv (H : QubitOperator) (P : Op) (m : ℕ) : Prop where
  pauli : ∀ t ∈ H, PauliCircuit t.2
  lat : ∀ t ∈ H, Lat m t.1
  op : (H = [] ∧ P = 1 ∧ m = 0) ∨ H.opLR = P

theorem addOp_eq (A B : QubitOperator) : A.addOp B = A ++ B := by
  unfold QubitOperator.addOp
  induction B generalizing A with
  | nil => simp
  | cons t B ih => rw [List.foldl_cons, ih]; simp

theorem isPauli_of_circuits {A : QubitOperator} (h : ∀ t ∈ A, PauliCircuit t.2) : A.IsPauli :=
  fun t ht g hg => ⟨.make (h t ht g hg).make, (h t ht g hg).letter⟩

open QubitOperator in
theorem product_lat {A B : QubitOperator} {m k : ℕ} (hA : ∀ t ∈ A, PauliCircuit t.2) (hB : ∀ t ∈ B, PauliCircuit t.2)
    (lA : ∀ t ∈ A, Lat m t.1) (lB : ∀ t ∈ B, Lat k t.1) (hm : m + k ≤ 39) :
    ∃ R, A.operatorProduct B true true = .ok R ∧ R.opLR = A.opLR * B.opLR ∧ (∀ t ∈ R, PauliCircuit t.2) ∧
      ∀ t ∈ R, Lat (m + k) t.1 := by
  obtain ⟨A1, e1, o1, n1, l1⟩ := simplify_lat hA lA (by omega)
  have hp : ∀ t ∈ A1.products B, PauliCircuit t.2 := by
    intro t ht g hg
    unfold products at ht
    obtain ⟨l, hl, ht⟩ := List.mem_flatMap.1 ht
    obtain ⟨r, hr, rfl⟩ := List.mem_map.1 ht
    rw [addCircuit_eq, addCircuit_eq, List.nil_append] at hg
    rcases List.mem_append.1 hg with h | h
    · exact (n1.canonical l hl).pauli g h
    · exact hB r hr g h
  have hl : ∀ t ∈ A1.products B, Lat (m + k) t.1 := by
    intro t ht
    unfold products at ht
    obtain ⟨l, hl, ht⟩ := List.mem_flatMap.1 ht
    obtain ⟨r, hr, rfl⟩ := List.mem_map.1 ht
    exact (l1 l hl).mul (lB r hr)
  obtain ⟨R, e2, o2, n2, l2⟩ := simplify_lat hp hl hm
  refine ⟨R, ?_, ?_, fun t ht => (n2.canonical t ht).pauli, l2⟩
  · unfold operatorProduct
    rw [if_pos rfl, e1, except_ok_bind, if_pos rfl, e2]
  · rw [o2, opLR_products, o1]

theorem jwHelper_ok (qe b : Bool) : ∀ (ops : List ℕ) (H : QubitOperator) (P : Op) (m : ℕ), JInv H P m → m + ops.length ≤ 39 →
    (∀ k < ops.length, P * ((ops.take k).map (lad qe b)).prod ≠ 0) →
    ∃ H', SQOperator.jwHelper H ops b qe = .ok H' ∧ JInv H' (P * (ops.map (lad qe b)).prod) (m + ops.length) := by
  intro ops
  induction ops with
  | nil => intro H P m hi _ _; exact ⟨H, rfl, by simpa using hi⟩
  | cons p ops ih =>
    intro H P m hi hm hne
    have h0 : P ≠ 0 := by simpa using hne 0 (by simp)
    have hstep : ∃ H1, (do
        let temp ← SQOperator.jwLadder b qe p
        if H.length = 0 then pure (H.addOp temp) else H.operatorProduct temp true true : Except Exc QubitOperator) = .ok H1 ∧
        JInv H1 (P * lad qe b p) (m + 1) := by
      rw [jwLadder_ok, except_ok_bind]
      rcases hi.op with ⟨rfl, rfl, rfl⟩ | ho
      · refine ⟨ladQ qe b p, ?_, ladQ_pauli qe b p, ?_, .inr ?_⟩
        · rw [if_pos (show ([] : QubitOperator).length = 0 from rfl), addOp_eq]; rfl
        · simpa using ladQ_lat qe b p
        · rw [ladQ_opLR, one_mul]
      · have hne : H ≠ [] := by
          intro e; rw [e] at ho; exact h0 (by rw [← ho]; rfl)
        obtain ⟨R, e1, e2, e3, e4⟩ := product_lat (k := 1) hi.pauli (ladQ_pauli qe b p) hi.lat (ladQ_lat qe b p)
          (by simp at hm; omega)
        refine ⟨R, ?_, e3, e4, .inr ?_⟩
        · rw [if_neg (by simpa using hne), e1]
        · rw [e2, ladQ_opLR, ho]
    obtain ⟨H1, e1, i1⟩ := hstep
    obtain ⟨H', e2, i2⟩ := ih H1 _ _ i1 (by simp at hm ⊢; omega) (by
      intro k hk
      have := hne (k + 1) (by simpa using hk)
      rwa [List.take_succ_cons, List.map_cons, List.prod_cons, ← mul_assoc] at this)
    refine ⟨H', ?_, ?_⟩
    · unfold SQOperator.jwHelper at e2 ⊢
      rw [List.foldlM_cons, e1, except_ok_bind, e2]
    · rw [List.map_cons, List.prod_cons, ← mul_assoc, List.length_cons, show m + (ops.length + 1) = m + 1 + ops.length by omega]
      exact i2

/-! ### products of distinct creators and distinct annihilators do not vanish -/

theorem ladder_single (b : Bool) (p I : ℕ) (h : I.testBit p ≠ b) :
    ladder b p (Pi.single I 1) = fsign I p • Pi.single (flipBit I p) 1 := by
  funext J
  rw [ladder_apply]
  by_cases hJ : J = flipBit I p
  · subst hJ
    rw [testBit_flipBit, if_pos rfl, flipBit_flipBit, fsign_flip]
    have : (!I.testBit p) = b := by
      revert h; rcases I.testBit p <;> cases b <;> simp
    simp [this]
  · have : flipBit J p ≠ I := fun e => hJ (by rw [← e, flipBit_flipBit])
    simp [Pi.single_eq_of_ne hJ, Pi.single_eq_of_ne this]

theorem qladder_single (b : Bool) (p I : ℕ) (h : I.testBit p ≠ b) : qladder b p (Pi.single I 1) = Pi.single (flipBit I p) 1 := by
  funext J
  rw [qladder_apply]
  by_cases hJ : J = flipBit I p
  · subst hJ
    rw [testBit_flipBit, if_pos rfl, flipBit_flipBit]
    have : (!I.testBit p) = b := by
      revert h; rcases I.testBit p <;> cases b <;> simp
    simp [this]
  · have : flipBit J p ≠ I := fun e => hJ (by rw [← e, flipBit_flipBit])
    simp [Pi.single_eq_of_ne hJ, Pi.single_eq_of_ne this]

theorem lad_single (qe b : Bool) (p I : ℕ) (h : I.testBit p ≠ b) :
    ∃ s : ℂ, s ≠ 0 ∧ lad qe b p (Pi.single I 1) = s • Pi.single (flipBit I p) 1 := by
  cases qe
  · refine ⟨fsign I p, ?_, ladder_single b p I h⟩
    intro e; have := fsign_sq I p; rw [e] at this; simp at this
  · exact ⟨1, one_ne_zero, by rw [one_smul]; exact qladder_single b p I h⟩

theorem lad_prod_single (qe b : Bool) : ∀ (ops : List ℕ) (I : ℕ), ops.Nodup → (∀ p ∈ ops, I.testBit p ≠ b) →
    ∃ s : ℂ, s ≠ 0 ∧ (ops.map (lad qe b)).prod (Pi.single I 1) = s • Pi.single (ops.foldr (fun p I => flipBit I p) I) 1 := by
  intro ops
  induction ops with
  | nil => intro I _ _; exact ⟨1, one_ne_zero, by simp⟩
  | cons p ops ih =>
    intro I hn hb
    obtain ⟨hp, hn⟩ := List.nodup_cons.1 hn
    obtain ⟨s, hs, e⟩ := ih I hn (fun q hq => hb q (by simp [hq]))
    have hbit : ∀ (ops : List ℕ), p ∉ ops → (ops.foldr (fun p I => flipBit I p) I).testBit p = I.testBit p := by
      intro ops
      induction ops with
      | nil => intro _; rfl
      | cons q ops ih =>
        intro h
        rw [List.foldr_cons, testBit_flipBit, if_neg (by intro e; exact h (by simp [e])), ih (fun e => h (by simp [e]))]
    obtain ⟨s', hs', e'⟩ := lad_single qe b p (ops.foldr (fun p I => flipBit I p) I) (by rw [hbit ops hp]; exact hb p (by simp))
    refine ⟨s * s', mul_ne_zero hs hs', ?_⟩
    rw [List.map_cons, List.prod_cons, Module.End.mul_apply, e, map_smul, e', smul_smul, List.foldr_cons]

theorem foldr_flip_self : ∀ (ops : List ℕ), ops.foldr (fun p I => flipBit I p) (ops.foldr (fun p I => flipBit I p) 0) = 0 := by
  have comm : ∀ (ops : List ℕ) (p I : ℕ), ops.foldr (fun p I => flipBit I p) (flipBit I p) = flipBit (ops.foldr (fun p I => flipBit I p) I) p := by
    intro ops p I
    induction ops with
    | nil => rfl
    | cons q ops ih => rw [List.foldr_cons, ih, List.foldr_cons, flipBit_comm]
  intro ops
  induction ops with
  | nil => rfl
  | cons p ops ih => rw [List.foldr_cons, List.foldr_cons, comm, ih, flipBit_flipBit]

theorem foldr_flip_bit (ops : List ℕ) (hn : ops.Nodup) : ∀ p ∈ ops, (ops.foldr (fun p I => flipBit I p) 0).testBit p = true := by
  have : ∀ (ops : List ℕ), ops.Nodup → ∀ p, (ops.foldr (fun p I => flipBit I p) 0).testBit p = decide (p ∈ ops) := by
    intro ops
    induction ops with
    | nil => simp
    | cons q ops ih =>
      intro hn p
      obtain ⟨hq, hn'⟩ := List.nodup_cons.1 hn
      rw [List.foldr_cons, testBit_flipBit]
      by_cases e : p = q
      · subst e; simp [ih hn', hq]
      · simp [e, ih hn']
  intro p hp
  rw [this ops hn]; simpa using hp

theorem lad_string_ne_zero (qe : Bool) (cre ann : List ℕ) (hc : cre.Nodup) (ha : ann.Nodup) :
    (cre.map (lad qe true)).prod * (ann.map (lad qe false)).prod ≠ 0 := by
  intro h
  obtain ⟨s, hs, e⟩ := lad_prod_single qe false ann (ann.foldr (fun p I => flipBit I p) 0) ha (by
    intro p hp; rw [foldr_flip_bit ann ha p hp]; simp)
  rw [foldr_flip_self] at e
  obtain ⟨s', hs', e'⟩ := lad_prod_single qe true cre 0 hc (by intro p _; simp)
  have h1 := congrArg (fun A : Op => A (Pi.single (ann.foldr (fun p I => flipBit I p) 0) 1)) h
  simp only [Module.End.mul_apply, e, map_smul, e', smul_smul] at h1
  have h2 := congrFun h1 (cre.foldr (fun p I => flipBit I p) 0)
  simp [hs, hs'] at h2

end QF
