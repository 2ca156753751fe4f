import Verif.Props.TaperParity
import Verif.Lemmas.Measure
import Verif.Lemmas.PauliGates

/-! C56: the Z2 symmetries found by `find_Z2_symmetries`. -/
namespace QF
open Finset

theorem pauliL_bits (x z x' z' : ZMod 2) (q : ℕ) : ∃ k, IsUnit4 k ∧
    pauliL (bitLetter x z) q * pauliL (bitLetter x' z') q = k • pauliL (bitLetter (x + x') (z + z')) q := by
  have hb : ∀ x : ZMod 2, x = 0 ∨ x = 1 := by decide
  have h2 : (1 : ZMod 2) + 1 = 0 := by decide
  rcases hb x with rfl | rfl <;> rcases hb z with rfl | rfl <;> rcases hb x' with rfl | rfl <;> rcases hb z' with rfl | rfl <;>
    simp [bitLetter, h2, opX_sq, opY_sq, opZ_sq, opX_opY, opY_opX, opX_opZ, opZ_opX, opY_opZ, opZ_opY] <;>
    first
      | exact ⟨1, .inl rfl, (one_smul ℂ _).symm⟩
      | exact ⟨Complex.I, .inr (.inr (.inl rfl)), rfl⟩
      | exact ⟨-Complex.I, .inr (.inr (.inr rfl)), rfl⟩

namespace Taper

theorem pauliStr_mul_bits (n : ℕ) (x z x' z' : ℕ → ZMod 2) : ∃ k, IsUnit4 k ∧
    pauliStr n (fun q => bitLetter (x q) (z q)) * pauliStr n (fun q => bitLetter (x' q) (z' q)) = k • pauliStr n (fun q => bitLetter (x q + x' q) (z q + z' q)) := by
  induction n with
  | zero => exact ⟨1, .inl rfl, by simp [pauliStr]⟩
  | succ n ih =>
    obtain ⟨k, hk, e⟩ := ih
    obtain ⟨k', hk', e'⟩ := pauliL_bits (x n) (z n) (x' n) (z' n) n
    refine ⟨k * k', hk.mul hk', ?_⟩
    rw [pauliStr_succ, pauliStr_succ, pauliStr_succ]
    have c1 := pauliStr_comm_above n (fun q => bitLetter (x' q) (z' q)) (le_refl n) (bitLetter (x n) (z n))
    calc _ = pauliStr n (fun q => bitLetter (x q) (z q)) * (pauliL (bitLetter (x n) (z n)) n * pauliStr n (fun q => bitLetter (x' q) (z' q))) * pauliL (bitLetter (x' n) (z' n)) n := by
            simp only [mul_assoc]
      _ = (pauliStr n (fun q => bitLetter (x q) (z q)) * pauliStr n (fun q => bitLetter (x' q) (z' q))) * (pauliL (bitLetter (x n) (z n)) n * pauliL (bitLetter (x' n) (z' n)) n) := by
            rw [← c1.eq]; simp only [mul_assoc]
      _ = _ := by rw [e, e', smul_mul_smul_comm]

theorem pauliVec_mul (n : ℕ) (v w : ℕ → ZMod 2) : ∃ k, IsUnit4 k ∧ pauliVec n v * pauliVec n w = k • pauliVec n (fun j => v j + w j) :=
  pauliStr_mul_bits n _ _ _ _

theorem pauliVec_zero (n : ℕ) : pauliVec n (fun _ => 0) = 1 := by
  unfold pauliVec pauliStr
  simp [bitLetter]

theorem pauliVec_congr {n : ℕ} {v w : ℕ → ZMod 2} (h : EqOn (2 * n) v w) : pauliVec n v = pauliVec n w := by
  unfold pauliVec
  apply pauliStr_congr
  intro q hq
  rw [h _ (by omega), h _ (by omega)]

/-- product of the strings of the rows in `l` -/
theorem pauliVec_prod (n : ℕ) (B : ℕ → ℕ → ZMod 2) : ∀ l : List ℕ, ∃ k, IsUnit4 k ∧
    (l.map fun r => pauliVec n (B r)).prod = k • pauliVec n (fun j => (l.map fun r => B r j).sum)
  | [] => ⟨1, .inl rfl, by simp [pauliVec_zero]⟩
  | r :: l => by
    obtain ⟨k, hk, e⟩ := pauliVec_prod n B l
    obtain ⟨k', hk', e'⟩ := pauliVec_mul n (B r) (fun j => (l.map fun r => B r j).sum)
    refine ⟨k * k', hk.mul hk', ?_⟩
    rw [List.map_cons, List.prod_cons, e, mul_smul_comm, e', smul_smul]
    simp

/-- the circuit of a vector -/
noncomputable def genc (n : ℕ) (v : ℕ → ZMod 2) : Circuit := (generatorCircuit_ok n v).choose

theorem genc_spec (n : ℕ) (v : ℕ → ZMod 2) : generatorCircuit n v = .ok (genc n v) ∧ (genc n v).Canonical ∧ (∀ g ∈ genc n v, g.target < n) ∧
    (∀ q < n, letterAt (genc n v) q = bitLetter (v (n - 1 - q)) (v (2 * n - 1 - q))) ∧ (genc n v).opLR = pauliVec n v :=
  (generatorCircuit_ok n v).choose_spec

theorem bitLetter_I {x z : ZMod 2} : bitLetter x z = "I" ↔ x = 0 ∧ z = 0 := by revert x z; decide

/-- only the zero vector encodes a multiple of the identity -/
theorem pauliVec_scalar {n : ℕ} {v : ℕ → ZMod 2} {z : ℂ} (h : pauliVec n v = z • 1) : EqOn (2 * n) v 0 := by
  obtain ⟨_, can, _, hl, op⟩ := genc_spec n v
  have hnil : genc n v = [] := by
    symm
    refine canon_inj (k := z) ⟨fun g hg => by simp at hg, List.Pairwise.nil⟩ can ?_
    rw [op, h]; simp
  intro j hj
  have hq : ∀ q < n, v (n - 1 - q) = 0 ∧ v (2 * n - 1 - q) = 0 := by
    intro q hq
    have := hl q hq
    rw [hnil] at this
    exact bitLetter_I.1 this.symm
  by_cases h1 : j < n
  · have := (hq (n - 1 - j) (by omega)).1
    rw [show n - 1 - (n - 1 - j) = j by omega] at this; exact this
  · have := (hq (2 * n - 1 - j) (by omega)).2
    rw [show 2 * n - 1 - (2 * n - 1 - j) = j by omega] at this; exact this

/-- the vector of a canonical string -/
def vecOf (n : ℕ) (c : Circuit) : ℕ → ZMod 2 := fun k => if k < n then xbit (letterAt c (n - 1 - k)) else zbit (letterAt c (2 * n - 1 - k))

theorem bitLetter_of {l : String} (h : IsIXYZ l) : bitLetter (xbit l) (zbit l) = l := by
  rcases h with rfl | rfl | rfl | rfl <;> decide

theorem vecOf_spec {n : ℕ} {c : Circuit} (hc : c.Canonical) (hn : ∀ g ∈ c, g.target < n) : c.opLR = pauliVec n (vecOf n c) := by
  rw [canon_pauliStr hc hn]
  unfold pauliVec vecOf
  apply pauliStr_congr
  intro q hq
  rw [if_pos (by omega), if_neg (by omega), show n - 1 - (n - 1 - q) = q by omega, show 2 * n - 1 - (2 * n - 1 - q) = q by omega,
    bitLetter_of (letterAt_IXYZ hc q)]

theorem kernel_rows_le (E : BMat) : (kernel E).rows ≤ E.cols := by
  unfold kernel
  simp only
  refine (List.length_filter_le _ _).trans ?_
  rw [List.length_drop, List.length_range]; omega

/-- what the linear algebra of `find_Z2_symmetries` achieves -/
structure GroupSpec (H : QubitOperator) (n : ℕ) (G : BMat) : Prop where
  cols : G.cols = 2 * n
  ker : ∀ r < G.rows, InKernel (parityCheck n H) (G.e r)
  comm : ∀ r < G.rows, ∀ r' < G.rows, symp n (G.e r) (G.e r') = 0
  indep : Independent G
  max : ∀ v, InKernel (parityCheck n H) v → (∀ r < G.rows, symp n (G.e r) v = 0) → InSpan G v
  own : ∀ r < G.rows, (∃ c, n ≤ c ∧ c < 2 * n ∧ ∀ q < G.rows, G.e q c ≠ 0 ↔ q = r) ∨ ∀ c, n ≤ c → c < 2 * n → G.e r c = 0

theorem mem_elimRange {n c : ℕ} (least : Bool) : c ∈ elimRange n least ↔ n ≤ c ∧ c < 2 * n := by
  have : c ∈ (List.range n).map (fun i => n + i) ↔ n ≤ c ∧ c < 2 * n := by
    rw [List.mem_map]
    constructor
    · rintro ⟨i, hi, rfl⟩; rw [List.mem_range] at hi; omega
    · intro h; exact ⟨c - n, List.mem_range.2 (by omega), by omega⟩
  unfold elimRange
  split_ifs
  · rw [List.mem_reverse, this]
  · exact this

theorem symp_comb_right (n : ℕ) (B : BMat) (v c : ℕ → ZMod 2) : symp n v (comb B c) = ∑ r ∈ range B.rows, c r * symp n v (B.e r) := by
  rw [symp_comm, symp_comb]
  exact sum_congr rfl fun r _ => by rw [symp_comm]

theorem group_spec (H : QubitOperator) (n : ℕ) (least : Bool) (fuel : ℕ) (hf : 2 * n < fuel) :
    let basis := kernel (parityCheck n H)
    let s := sgso basis (commutation basis)
    ∃ G, maximalAbelian fuel n s.1 s.2 least = .ok G ∧ GroupSpec H n G := by
  intro basis s
  obtain ⟨k1, k2, k3, k4⟩ := C54_kernel_basis (parityCheck n H)
  have kr := kernel_rows_le (parityCheck n H)
  have hcols : basis.cols = 2 * n := k1
  obtain ⟨s1, s2, s3⟩ := sgso_spec n basis hcols
  have sc : s.1.cols = 2 * n := s1.2.1.trans hcols
  have sr : s.1.rows ≤ 2 * n := by rw [s1.1]; exact kr
  obtain ⟨A, ks, a1, sel, a2, a3, a4⟩ := abelianLoop_spec n fuel s.1 sc (by omega) sr s3
  have hs2 : s.2 = commutation s.1 := s2
  unfold maximalAbelian
  rw [hs2, a1]
  simp only [except_ok_bind, pure, Except.pure]
  -- the elimination
  have einv : EInv A.rows A.cols A.e [] (A.e, [], 0) :=
    ⟨RowOp.refl _, rfl, by simp, fun r hr => by simp at hr, fun r hr => by simp at hr, fun q _ _ c hc => by simp at hc⟩
  obtain ⟨el1, el2⟩ := elimLoop_spec A.rows A.cols A.e (elimRange n least) [] (A.e, [], 0) einv
  set G : BMat := { A with e := (elimLoop A.rows (elimRange n least) (A.e, [], 0)).1 } with hG
  have row : RowOp A G := el1
  have Acols : A.cols = 2 * n := sel.cols.trans sc
  have Gcols : G.cols = 2 * n := Acols
  -- kernel membership
  have sker : ∀ r < s.1.rows, InKernel (parityCheck n H) (s.1.e r) := by
    intro r hr
    refine inKernel_comb (B := basis) k1 k2 ?_
    exact (s1.span _).1 (inSpan_row s.1 hr)
  have aker : ∀ r < A.rows, InKernel (parityCheck n H) (A.e r) := by
    intro r hr
    rw [sel.rows] at hr
    rw [sel.e r hr]; exact sker _ (sel.lt _ (getD_mem hr))
  have gspan : ∀ r < G.rows, InSpan A (G.e r) := fun r hr => (row.span _).1 (inSpan_row G hr)
  have acomm : ∀ r < A.rows, ∀ r' < A.rows, symp n (A.e r) (A.e r') = 0 := by
    intro r hr r' hr'
    rw [sel.rows] at hr hr'
    rw [sel.e r hr, sel.e r' hr']
    exact a2 _ (getD_mem hr) _ (getD_mem hr')
  refine ⟨G, rfl, Gcols, ?_, ?_, ?_, ?_, ?_⟩
  · intro r hr; exact inKernel_comb (B := A) Acols aker (gspan r hr)
  · intro r hr r' hr'
    obtain ⟨c, hc⟩ := gspan r hr
    obtain ⟨c', hc'⟩ := gspan r' hr'
    rw [Acols] at hc hc'
    rw [symp_congr hc hc', symp_comb]
    apply sum_eq_zero
    intro x hx
    rw [symp_comb_right, sum_eq_zero, mul_zero]
    intro y hy
    rw [acomm x (mem_range.1 hx) y (mem_range.1 hy), mul_zero]
  · exact row.independent (sel.independent (s1.independent k3))
  · intro v hv hsym
    rw [row.span]
    -- commutes with the rows of A too
    have hA : ∀ r < A.rows, symp n (A.e r) v = 0 := by
      intro r hr
      obtain ⟨c, hc⟩ := (row.span _).2 (inSpan_row A hr)
      rw [Gcols] at hc
      rw [symp_congr hc (fun _ _ => rfl : EqOn (2 * n) v v), symp_comb]
      apply sum_eq_zero
      intro x hx
      rw [hsym x (mem_range.1 hx), mul_zero]
    obtain ⟨c, hc⟩ := (s1.span v).2 (k4 v hv)
    have hspan : InSpan A (comb s.1 c) := by
      apply sel.span
      intro d hd hdn
      obtain ⟨k, hk, hkd⟩ := a3 d hd hdn
      obtain ⟨r, hr, hrk⟩ := exists_getD hk
      have h0 := hA r (by rw [sel.rows]; exact hr)
      rw [sel.e r hr, hrk] at h0
      rw [symp_congr (fun _ _ => rfl : EqOn (2 * n) (s.1.e k) (s.1.e k)) (by rw [sc] at hc; exact hc), symp_comb_right] at h0
      rw [Finset.sum_eq_single d] at h0
      · rw [hkd, mul_one] at h0; exact h0
      · intro b hb hbd
        have : symp n (s.1.e k) (s.1.e b) = 0 := by
          by_contra h1
          exact hbd (s3 k (sel.lt k hk) b (mem_range.1 hb) d hd (z2_ne h1) hkd)
        rw [this, mul_zero]
      · intro h; exact absurd (mem_range.2 hd) h
    obtain ⟨e, he⟩ := hspan
    refine ⟨e, fun j hj => ?_⟩
    rw [← he j hj]
    exact hc j (by rw [sc, ← Acols]; exact hj)
  · intro r hr
    rcases el2 r hr with ⟨c, hc, h⟩ | h
    · rw [List.nil_append, mem_elimRange] at hc
      exact .inl ⟨c, hc.1, hc.2, h⟩
    · right
      intro c h1 h2
      exact h c (by rw [List.nil_append, mem_elimRange]; exact ⟨h1, h2⟩)

/-! ### generators as circuits -/

theorem perm_prod {l l' : List Circuit} (h : l.Perm l') (hc : ∀ g ∈ l, ∀ g' ∈ l, Commute g.opLR g'.opLR) :
    (l.map Circuit.opLR).prod = (l'.map Circuit.opLR).prod := by
  refine (h.map _).prod_eq' ?_
  rw [List.pairwise_map]
  exact List.pairwise_of_forall_mem_list fun a ha b hb => hc a ha b hb

theorem SymmetryGenerators.perm {H : QubitOperator} {gens gens' : List Circuit} (hp : gens'.Perm gens) (h : SymmetryGenerators H gens) :
    SymmetryGenerators H gens' := by
  refine ⟨fun g hg => h.symmetry g (hp.mem_iff.1 hg), fun g hg g' hg' => h.abelian g (hp.mem_iff.1 hg) g' (hp.mem_iff.1 hg'), ?_, ?_⟩
  · intro L hL hne z
    obtain ⟨L0, p0, s0⟩ := (hL.subperm.trans hp.subperm : L.Subperm gens)
    have hm : ∀ g ∈ L0, g ∈ gens := fun g hg => s0.subset hg
    rw [← perm_prod p0 (fun g hg g' hg' => h.abelian g (hm g hg) g' (hm g' hg'))]
    refine h.independent L0 s0 ?_ z
    rintro rfl
    exact hne (List.nil_perm.1 p0)
  · intro c hc hg
    obtain ⟨L, hL, z, hz, e⟩ := h.maximal c hc (fun g hgm => hg g (hp.mem_iff.2 hgm))
    obtain ⟨L0, p0, s0⟩ := (hL.subperm.trans hp.symm.subperm : L.Subperm gens')
    refine ⟨L0, s0, z, hz, ?_⟩
    rw [perm_prod p0 (fun g hg g' hg' => ?_), e]
    exact h.abelian g (hp.mem_iff.1 (s0.subset hg)) g' (hp.mem_iff.1 (s0.subset hg'))

theorem sum_filter_rows (R : ℕ) (c : ℕ → ZMod 2) (B : ℕ → ℕ → ZMod 2) (j : ℕ) :
    (((List.range R).filter fun r => c r ≠ 0).map fun r => B r j).sum = ∑ r ∈ range R, c r * B r j := by
  induction R with
  | zero => simp
  | succ R ih =>
    rw [List.range_succ, List.filter_append, List.map_append, List.sum_append, ih, sum_range_succ]
    congr 1
    by_cases h : c R = 0
    · simp [h]
    · simp [z2_ne h]

/-- terms of `H` act on its own qubits -/
theorem term_targets {H : QubitOperator} {t : ℂ × Circuit} (ht : t ∈ H) : ∀ g ∈ t.2, g.target < H.numQubits :=
  fun g hg => ((C13_operator_num_qubits H).1 t ht g hg).1

theorem generators_spec (H : QubitOperator) (hH : ∀ t ∈ H, t.2.Canonical) {G : BMat} (h : GroupSpec H H.numQubits G) :
    SymmetryGenerators H ((List.range G.rows).map fun r => genc H.numQubits (G.e r)) := by
  set n := H.numQubits with hn
  have hH' : ∀ t ∈ H, t.2.Canonical ∧ ∀ g ∈ t.2, g.target < n := fun t ht => ⟨hH t ht, term_targets ht⟩
  refine ⟨?_, ?_, ?_, ?_⟩
  · intro g hg
    obtain ⟨r, hr, rfl⟩ := List.mem_map.1 hg
    obtain ⟨_, can, tg, _, op⟩ := genc_spec n (G.e r)
    refine ⟨can, tg, ?_⟩
    rw [op]
    exact (C56_kernel_iff n H hH' _).1 (h.ker r (List.mem_range.1 hr))
  · intro g hg g' hg'
    obtain ⟨r, hr, rfl⟩ := List.mem_map.1 hg
    obtain ⟨r', hr', rfl⟩ := List.mem_map.1 hg'
    rw [(genc_spec n (G.e r)).2.2.2.2, (genc_spec n (G.e r')).2.2.2.2]
    exact (symp_commute n _ _).1.2 (h.comm r (List.mem_range.1 hr) r' (List.mem_range.1 hr'))
  · intro L hL hne z hz
    obtain ⟨l, hl, rfl⟩ := List.sublist_map_iff.1 hL
    have nd : l.Nodup := hl.nodup List.nodup_range
    have hlt : ∀ r ∈ l, r < G.rows := fun r hr => List.mem_range.1 (hl.subset hr)
    obtain ⟨k, hk, e⟩ := pauliVec_prod n G.e l
    have e1 : ((l.map fun r => genc n (G.e r)).map Circuit.opLR) = l.map fun r => pauliVec n (G.e r) := by
      rw [List.map_map]
      exact List.map_congr_left fun r _ => (genc_spec n (G.e r)).2.2.2.2
    rw [e1, e] at hz
    have hsc : pauliVec n (fun j => (l.map fun r => G.e r j).sum) = (k⁻¹ * z) • 1 := by
      rw [mul_smul, ← hz, smul_smul, inv_mul_cancel₀ hk.ne_zero, one_smul]
    have h0 := pauliVec_scalar hsc
    set c : ℕ → ZMod 2 := fun r => if r ∈ l then 1 else 0 with hc
    have hcomb : EqOn G.cols (comb G c) 0 := by
      intro j hj
      rw [h.cols] at hj
      have := h0 j hj
      simp only [Pi.zero_apply] at this ⊢
      rw [← this]
      unfold comb
      have e2 : ∑ r ∈ range G.rows, c r * G.e r j = ∑ r ∈ l.toFinset, G.e r j := by
        symm
        rw [← Finset.sum_subset (s₁ := l.toFinset) (s₂ := range G.rows) (f := fun r => c r * G.e r j)]
        · apply sum_congr rfl
          intro r hr; rw [hc]; simp [List.mem_toFinset.1 hr]
        · intro r hr; exact mem_range.2 (hlt r (List.mem_toFinset.1 hr))
        · intro r _ hr; rw [hc]; simp only; rw [if_neg (fun h => hr (List.mem_toFinset.2 h)), zero_mul]
      rw [e2, List.sum_toFinset _ nd]
    have hz' := h.indep c hcomb
    obtain ⟨r, l', rfl⟩ := List.exists_cons_of_ne_nil (show l ≠ [] from fun h => hne (by rw [h]; rfl))
    have := hz' r (hlt r (by simp))
    rw [hc] at this
    simp at this
  · intro c hc hg
    have hv := vecOf_spec hc.canonical hc.qubits
    rw [← hn] at hv
    obtain ⟨d, hd⟩ := h.max (vecOf n c) ((C56_kernel_iff n H hH' _).2 (fun t ht => by rw [← hv]; exact hc.commute t ht)) (by
      intro r hr
      rw [symp_comm]
      refine (symp_commute n _ _).1.1 ?_
      rw [← hv, ← (genc_spec n (G.e r)).2.2.2.2]
      exact hg _ (List.mem_map.2 ⟨r, List.mem_range.2 hr, rfl⟩))
    refine ⟨((List.range G.rows).filter fun r => d r ≠ 0).map fun r => genc n (G.e r), List.filter_sublist.map _, ?_⟩
    obtain ⟨k, hk, e⟩ := pauliVec_prod n G.e ((List.range G.rows).filter fun r => d r ≠ 0)
    have e1 : ((((List.range G.rows).filter fun r => d r ≠ 0).map fun r => genc n (G.e r)).map Circuit.opLR) =
        ((List.range G.rows).filter fun r => d r ≠ 0).map fun r => pauliVec n (G.e r) := by
      rw [List.map_map]
      exact List.map_congr_left fun r _ => (genc_spec n (G.e r)).2.2.2.2
    have hkc : IsUnit4 k⁻¹ := by
      rcases hk with rfl | rfl | rfl | rfl <;> simp [IsUnit4]
    refine ⟨k⁻¹, hkc, ?_⟩
    rw [e1, e, smul_smul, inv_mul_cancel₀ hk.ne_zero, one_smul, hv]
    apply pauliVec_congr
    intro j hj
    rw [hd j (by rw [h.cols]; exact hj)]
    exact (sum_filter_rows G.rows d G.e j).symm

end Taper
end QF
