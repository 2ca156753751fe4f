import Verif.Lemmas.ExpoComm
import Verif.Lemmas.Skew
import Verif.Props.JW
import Verif.Lemmas.Support
import Verif.Lemmas.SQNormal
import Verif.Spec.Excitation
import Verif.Props.TaperC67
import Verif.Lemmas.ExpoExact

namespace QF

/-! ### C69: when the Trotter product is the exponential -/

theorem exponentiate_phase {z : ℂ} {c : Circuit} {cr : Bool × Option ℕ × Bool} {C : Circuit} {ph : ℂ} (hc : c ≠ [])
    (h : exponentiatePauliString z c cr.1 cr.2.1 cr.2.2 = .ok (C, ph)) : ph = 1 := by
  have hc' : ¬ c.length = 0 := by rwa [List.length_eq_zero_iff]
  unfold exponentiatePauliString at h
  by_cases hz : 1e-14 < |z.re|
  · rw [if_pos hz] at h; cases h
  · rw [if_neg hz, if_neg hc'] at h
    simp only [bind, Except.bind] at h
    repeat' split at h
    all_goals first
      | cases h; rfl
      | cases h

theorem trotterLoop_phase {cr : Bool × Option ℕ × Bool} {f : ℂ → ℂ} {A : QubitOperator} (hA : ∀ t ∈ A, t.2 ≠ []) {C : Circuit} {ph : ℂ}
    (h : trotterLoop cr f A = .ok (C, ph)) : ph = 1 := by
  have key : ∀ (A : QubitOperator) (s : Circuit × ℂ), (∀ t ∈ A, t.2 ≠ []) → s.2 = 1 → ∀ r, A.foldlM (fun (s : Circuit × ℂ) t => (do
        let (gen, ph) ← exponentiatePauliString (f t.1) t.2 cr.1 cr.2.1 cr.2.2
        pure (gen.foldl Circuit.addGate s.1, s.2 * ph) : Except Exc (Circuit × ℂ))) s = .ok r → r.2 = 1 := by
    intro A
    induction A with
    | nil => intro s _ hs r hr; cases hr; exact hs
    | cons t A ih =>
      intro s hA hs r hr
      rw [List.foldlM_cons] at hr
      cases he : exponentiatePauliString (f t.1) t.2 cr.1 cr.2.1 cr.2.2 with
      | error e => rw [he] at hr; cases hr
      | ok x =>
        obtain ⟨G, p⟩ := x
        rw [he] at hr
        simp only [except_ok_bind, pure, Except.pure] at hr
        refine ih _ (fun u hu => hA u (by simp [hu])) ?_ r hr
        rw [exponentiate_phase (cr := cr) (hA t (by simp)) he, hs, mul_one]
  exact key A ([], 1) hA rfl (C, ph) h

theorem trotterize_phase {A : QubitOperator} {factor : ℂ} {N order : ℤ} (hA : ∀ t ∈ A, t.2 ≠ []) {C : Circuit} {ph : ℂ}
    (h : trotterize A factor N order = .ok (C, ph)) : ph = 1 := by
  unfold trotterize trotterBody at h
  split_ifs at h
  · exact trotterLoop_phase hA h
  · refine trotterLoop_phase ?_ h
    intro t ht
    rw [trotterTerms_eq] at ht
    obtain ⟨l, hl, ht⟩ := List.mem_flatten.1 ht
    rw [(List.mem_replicate.1 hl).2] at ht
    obtain ⟨u, hu, rfl⟩ := List.mem_map.1 ht
    exact hA u hu

theorem ipauli_sq {c : Circuit} (h : c.IPauliString) : c.op * c.op = 1 := pauliString_sq h

/-- `trotterize` with the qubits of its gates -/
theorem trotterize_fits (n : ℕ) (A : QubitOperator) (factor : ℂ) (N order : ℤ) (ho : order ≤ 1) (hN : 0 ≤ N)
    (hA : ∀ t ∈ A, TrotterTerm t.2) (hn : ∀ t ∈ A, ∀ g ∈ t.2, g.target < n) (hf : ∀ t ∈ A, (factor * t.1).re = 0) :
    ∃ C ph Us, trotterize A factor N order = .ok (C, ph) ∧
      List.Forall₂ (fun t U => IsExp ((factor * t.1 / (N : ℂ)) • t.2.op) U) A Us ∧
      ph • Circuit.op C = applyInOrder Us ^ N.toNat ∧
      ∀ g ∈ C, (ApiGate g ∧ ExactGate g) ∧ g.target < n ∧ g.control < n := by
  refine trotterBody_ok _ (fun z c U => IsExp (z • c.op) U) (fun z c U V h h' => h.unique h') _ A factor N order ho hN ?_
  intro t ht
  have hre : (factor * t.1 / (N : ℂ)).re = 0 := by
    rw [show (N : ℂ) = ((N : ℝ) : ℂ) by push_cast; rfl, Complex.div_ofReal_re, hf t ht, zero_div]
  obtain ⟨C, ph, h1⟩ := C38_returns _ hre t.2 (hA t ht).1 (hA t ht).2
  obtain ⟨h2, h3⟩ := C38_exponential _ hre t.2 (hA t ht).1 C ph h1
  have hq : ∀ q ∈ t.2.map Gate.target, q < n := by
    intro q hq
    obtain ⟨g, hg, rfl⟩ := List.mem_map.1 hq
    exact hn t ht g hg
  exact ⟨C, ph, h1, h2, fun g hg => ⟨⟨(h3 g hg).1, expo_exact (hA t ht).1 h1 g hg⟩, hq _ (h3 g hg).2.1, hq _ (h3 g hg).2.2⟩⟩

/-- the Trotter product of commuting terms is the exponential of their sum -/
theorem trotter_commuting (A : QubitOperator) (factor : ℂ) (N : ℤ) (hN : 1 ≤ N) (hA : ∀ t ∈ A, t.2.IPauliString)
    (hc : ∀ s ∈ A, ∀ t ∈ A, Commute s.2.op t.2.op) (Us : List Op)
    (h2 : List.Forall₂ (fun t U => IsExp ((factor * t.1 / (N : ℂ)) • t.2.op) U) A Us) : IsExp (factor • A.op) (applyInOrder Us ^ N.toNat) := by
  let L : List (ℂ × Op) := A.map fun t => (factor * t.1 / (N : ℂ), t.2.op)
  have hN0 : (N : ℂ) ≠ 0 := by exact_mod_cast (by omega : N ≠ 0)
  have hL : List.Forall₂ (fun (t : ℂ × Op) U => IsExp (t.1 • t.2) U) L Us := List.forall₂_map_left_iff.2 h2
  have hrep : ∀ k : ℕ, List.Forall₂ (fun (t : ℂ × Op) U => IsExp (t.1 • t.2) U) (List.replicate k L).flatten (List.replicate k Us).flatten := by
    intro k
    induction k with
    | zero => simp
    | succ k ih => rw [List.replicate_succ, List.replicate_succ, List.flatten_cons, List.flatten_cons]; exact List.rel_append hL ih
  have hmem : ∀ t ∈ (List.replicate N.toNat L).flatten, ∃ u ∈ A, t.2 = u.2.op := by
    intro t ht
    obtain ⟨l, hl, ht⟩ := List.mem_flatten.1 ht
    rw [(List.mem_replicate.1 hl).2] at ht
    obtain ⟨u, hu, rfl⟩ := List.mem_map.1 ht
    exact ⟨u, hu, rfl⟩
  have := (isExp_applyInOrder _ _ (by
    intro t ht
    obtain ⟨u, hu, e⟩ := hmem t ht
    rw [e]; exact pauliString_sq (hA u hu)) (by
    intro s hs t ht
    obtain ⟨u, hu, e⟩ := hmem t ht
    obtain ⟨v, hv, e'⟩ := hmem s hs
    rw [e, e']; exact hc v hv u hu) (hrep N.toNat)).1
  rw [applyInOrder_replicate] at this
  convert! this using 1
  have hsum : ∀ k : ℕ, ((List.replicate k L).flatten.map fun t => t.1 • t.2).sum = (k : ℂ) • (L.map fun t => t.1 • t.2).sum := by
    intro k
    induction k with
    | zero => simp
    | succ k ih =>
      rw [List.replicate_succ, List.flatten_cons, List.map_append, List.sum_append, ih]; push_cast; module
  rw [hsum]
  have hk : ((N.toNat : ℕ) : ℂ) = (N : ℂ) := by
    have : (N.toNat : ℤ) = N := Int.toNat_of_nonneg (by omega)
    exact_mod_cast this
  rw [hk, QubitOperator.op, List.smul_sum, List.smul_sum]
  congr 1
  simp only [L, List.map_map, Function.comp_def, smul_smul]
  refine List.map_congr_left fun t _ => ?_
  congr 1
  field_simp

/-- C69: if the terms commute with each other the circuit is the exact exponential of the whole operator, whatever the
number of Trotter steps. -/
theorem C69_commuting_exact (n : ℕ) (A : QubitOperator) (factor : ℂ) (N order : ℤ) (ho : order ≤ 1) (hN : 1 ≤ N)
    (hA : ∀ t ∈ A, TrotterTerm t.2) (hn : ∀ t ∈ A, ∀ g ∈ t.2, g.target < n) (hf : ∀ t ∈ A, (factor * t.1).re = 0)
    (hc : ∀ s ∈ A, ∀ t ∈ A, Commute s.2.op t.2.op) :
    ∃ C ph, trotterize A factor N order = .ok (C, ph) ∧ IsExp (factor • A.op) (ph • C.op) ∧ (∀ g ∈ C, ApiGate g ∧ ExactGate g) ∧ C.Fits n ∧
      ((∀ t ∈ A, t.2 ≠ []) → ph = 1) := by
  obtain ⟨C, ph, Us, h1, h2, h3, h4⟩ := trotterize_fits n A factor N order ho (by omega) hA hn hf
  refine ⟨C, ph, h1, ?_, fun g hg => (h4 g hg).1, fun g hg => (h4 g hg).2, fun h => trotterize_phase h h1⟩
  rw [h3]
  exact trotter_commuting A factor N hN (fun t ht => (hA t ht).1) hc Us h2

/-- strings in canonical form are accepted by `trotterize` -/
theorem canonical_trotter {c : Circuit} (h : c.Canonical) : TrotterTerm c := by
  refine ⟨⟨fun g hg => ⟨.inr (h.gates g hg).1, (h.gates g hg).2⟩, ?_⟩, ?_⟩
  · exact (List.pairwise_map.2 (h.sorted.imp fun h => (Nat.ne_of_lt h)))
  · by_cases e : c = []
    · exact .inl e
    · obtain ⟨g, s, rfl⟩ := List.exists_cons_of_ne_nil e
      refine .inr ⟨g, by simp, ?_⟩
      rcases (h.gates g (by simp)).1 with h | h | h <;> rw [h] <;> decide


theorem qladder_commute (b : Bool) {p q : ℕ} (h : p ≠ q) : qladder b p * qladder b q = qladder b q * qladder b p := by
  refine Op.ext' fun ψ I => ?_
  rw [Module.End.mul_apply, Module.End.mul_apply, qladder_apply, qladder_apply, qladder_apply, qladder_apply, flip_bit_ne h, flip_bit_ne h.symm, flipBit_comm']
  split_ifs <;> rfl

theorem qladders_perm (b : Bool) {l l' : List ℕ} (h : l.Perm l') : (l.map (qladder b)).prod = (l'.map (qladder b)).prod := by
  refine List.Perm.prod_eq' (h.map _) ?_
  rw [List.pairwise_map]
  refine List.pairwise_of_forall fun p q => ?_
  by_cases e : p = q
  · subst e; rfl
  · exact qladder_commute b e

theorem qubitString_reverse (c a : List ℕ) : qubitString c.reverse a.reverse = qubitString c a := by
  unfold qubitString
  rw [qladders_perm true (List.reverse_perm c), qladders_perm false (List.reverse_perm a)]

theorem exc_kappa {n : ℕ} {c a : List ℕ} (h : Excit n c a) : SQOperator.op (excTerms c a) = kappa false c a := by
  rw [excTerms_op, kappa, if_neg (by decide), fermiString_reverse (sdesc_nodup h.desc_a) (sdesc_nodup h.desc_c) h.rank.symm]

theorem exc_qkappa (c a : List ℕ) : SQOperator.qop (excTerms c a) = kappa true c a := by
  rw [kappa, if_pos rfl, qubitString_reverse]
  unfold excTerms SQOperator.qop
  split <;> simp only [List.map_cons, List.map_nil, List.sum_cons, List.sum_nil, one_smul, add_zero]
  · exact op_sub₁ _ _
  · exact op_sub₂ _ _

theorem exc_mem {c a : List ℕ} {t : SQTerm} (h : t ∈ excTerms c a) : (t.1 = 1 ∧ t.2 = (c, a)) ∨ (t.1 = -1 ∧ t.2 = (a, c)) := by
  unfold excTerms at h
  split at h <;> simp only [List.mem_cons, List.not_mem_nil, or_false] at h <;> rcases h with rfl | rfl <;> simp

theorem exc_distinct {n : ℕ} {c a : List ℕ} (h : Excit n c a) : (excTerms c a).Distinct := by
  intro t ht
  rcases exc_mem ht with ⟨_, e⟩ | ⟨_, e⟩ <;> rw [e]
  · exact ⟨sdesc_nodup h.desc_c, sdesc_nodup h.desc_a⟩
  · exact ⟨sdesc_nodup h.desc_a, sdesc_nodup h.desc_c⟩

theorem simplify_excTerms (o : SQOperator.DescSort) {n : ℕ} {c a : List ℕ} (h : Excit n c a) : SQOperator.simplify o (excTerms c a) = .ok (excTerms c a) :=
  simplify_exc o _ (exc_distinct h) h.desc_c h.desc_a h.ne (excTerms_op c a)

/-- the Jordan-Wigner transform of an excitation operator -/
theorem jw_exc (o : SQOperator.DescSort) {n : ℕ} {c a : List ℕ} (h : Excit n c a) (hr : c.length ≤ 19) (q : Bool) :
    ∃ Q, SQOperator.jwTransform o (excTerms c a) q = .ok (Q, excTerms c a) ∧ Q.Normal ∧ Q.opLR = kappa q c a ∧
      ∀ t ∈ Q, 1e-12 < ‖t.1‖ ∧ Lat (2 * c.length) t.1 := by
  have hlen : ∀ t ∈ excTerms c a, t.2.1.length + t.2.2.length = 2 * c.length := by
    intro t ht
    have := h.rank
    rcases exc_mem ht with ⟨_, e⟩ | ⟨_, e⟩ <;> rw [e] <;> simp only <;> omega
  obtain ⟨Q, R, DQ, e1, e2, e3, nQ, hQ, hD, hex⟩ := jw_core o (excTerms c a) q (exc_distinct h)
    (fun t ht => by rw [hlen t ht]; omega)
  rw [simplify_excTerms o h] at e2; cases e2
  obtain ⟨h0, hl⟩ := hex 0 (2 * c.length) (by omega) (fun t ht => ⟨by
    rcases exc_mem ht with ⟨e, _⟩ | ⟨e, _⟩ <;> rw [e]
    · exact ⟨1, 0, by simp⟩
    · exact ⟨-1, 0, by simp⟩, by rw [hlen t ht]; omega⟩)
  refine ⟨Q, e1, nQ, ?_, fun t ht => ⟨hQ t ht, hl t ht⟩⟩
  rw [h0, add_zero] at e3
  rw [← e3]
  cases q
  · rw [← exc_kappa h]; rfl
  · rw [← exc_qkappa]; rfl

/-- the strings of a real antisymmetric operator, ready for `trotterize` -/
theorem skew_trotter {n m : ℕ} {Q : QubitOperator} (hQ : ∀ t ∈ Q, t.2.Canonical) (hn : (Q.map Prod.snd).Nodup) (h0 : ∀ t ∈ Q, t.1 ≠ 0)
    (hs : RealSkew m Q.opLR) (hb : ActsBelow n Q.opLR) (A : QubitOperator) (hA : ∀ t ∈ A, ∃ u ∈ Q, t.2 = u.2) (t : ℂ)
    (hre : ∀ x ∈ A, (t * x.1).re = 0) (N order : ℤ) (ho : order ≤ 1) (hN : 1 ≤ N) :
    ∃ C, trotterize A t N order = .ok (C, 1) ∧ IsExp (t • A.opLR) C.op ∧ (∀ g ∈ C, ApiGate g ∧ ExactGate g) ∧ C.Fits n := by
  have h1 := skew_strings hQ hn hs
  have h2 := support_strings hQ hn hb
  have hcan : ∀ x ∈ A, x.2.Canonical := by
    intro x hx; obtain ⟨u, hu, e⟩ := hA x hx; rw [e]; exact hQ u hu
  obtain ⟨C, ph, e, he, hg, hf, hp⟩ := C69_commuting_exact n A t N order ho hN (fun x hx => canonical_trotter (hcan x hx)) (by
      intro x hx; obtain ⟨u, hu, e⟩ := hA x hx; rw [e]; exact h2 u hu (h0 u hu)) hre (by
      intro x hx y hy
      obtain ⟨u, hu, e⟩ := hA x hx
      obtain ⟨v, hv, e'⟩ := hA y hy
      rw [(hcan x hx).op_eq, (hcan y hy).op_eq, e, e']
      obtain ⟨_, a1, a2⟩ := h1 u hu (h0 u hu)
      obtain ⟨_, b1, b2⟩ := h1 v hv (h0 v hv)
      exact odd_commute (hQ u hu) (hQ v hv) a1 b1 a2 b2)
  have hph : ph = 1 := hp (by
    intro x hx; obtain ⟨u, hu, e⟩ := hA x hx; rw [e]
    exact odd_ne_nil (h1 u hu (h0 u hu)).2.2)
  subst hph
  rw [one_smul, op_eq_opLR_canonical hcan] at he
  exact ⟨C, e, he, hg, hf⟩

theorem ne_zero_of_gt {z : ℂ} (h : 1e-12 < ‖z‖) : z ≠ 0 := by rintro rfl; norm_num at h

/-- C69: for every excitation `κ = τ - τ†` of rank at most 19, fermionic or qubit, every amplitude and every number of Trotter
steps, `trotterize` of its Jordan-Wigner transform has phase 1 and is exactly `exp(t κ)`. -/
theorem C69_excitation (o : SQOperator.DescSort) (n : ℕ) (c a : List ℕ) (h : Excit n c a) (hr : c.length ≤ 19) (q : Bool) :
    ∃ Q R, SQOperator.jwTransform o (excTerms c a) q = .ok (Q, R) ∧ ∀ (t : ℝ) (N : ℤ), 1 ≤ N →
      ∃ C, trotterize Q t N = .ok (C, 1) ∧ IsExp ((t : ℂ) • kappa q c a) C.op ∧ (∀ g ∈ C, ApiGate g ∧ ExactGate g) ∧ C.Fits n := by
  obtain ⟨Q, e, nQ, hop, hQ⟩ := jw_exc o h hr q
  refine ⟨Q, _, e, fun t N hN => ?_⟩
  have hs : RealSkew (lmask (caList c a)) Q.opLR := by rw [hop]; exact kappa_skew q c a
  have h0 : ∀ t ∈ Q, t.1 ≠ 0 := fun t ht => ne_zero_of_gt (hQ t ht).1
  rw [← hop]
  refine skew_trotter nQ.canonical (Normal.nodup nQ) h0 hs (by rw [hop]; exact acts_kappa q h.bound_c h.bound_a) Q (fun x hx => ⟨x, hx, rfl⟩) t ?_ N 1 le_rfl hN
  intro x hx
  have := (skew_strings nQ.canonical (Normal.nodup nQ) hs x hx (h0 x hx)).1
  simp [this]

theorem C69_example : Excit 6 [5, 4] [1, 0] ∧ Excit 4 [3, 1] [1, 0] ∧ ([5, 4] : List ℕ).length ≤ 19 := by
  refine ⟨⟨?_, ?_, ?_, ?_, ?_, ?_⟩, ⟨?_, ?_, ?_, ?_, ?_, ?_⟩, ?_⟩ <;> simp

end QF
