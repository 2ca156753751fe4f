import Verif.Props.UnitsQite
import Verif.Props.MrsqkRun
/-!
C122: the order in which the references are given to MRSQK.
-/
namespace QF

/-- `σ` and `τ` are inverse permutations of `0, …, k-1` -/
structure InvPerm (k : ℕ) (σ τ : ℕ → ℕ) : Prop where
  fwd : ∀ p < k, σ p < k ∧ τ (σ p) = p
  back : ∀ q < k, τ q < k ∧ σ (τ q) = q

theorem InvPerm.symm {k : ℕ} {σ τ : ℕ → ℕ} (h : InvPerm k σ τ) : InvPerm k τ σ := ⟨h.back, h.fwd⟩

theorem InvPerm.sum {k : ℕ} {σ τ : ℕ → ℕ} (h : InvPerm k σ τ) {M : Type*} [AddCommMonoid M] (f : ℕ → M) : ∑ p ∈ Finset.range k, f (σ p) = ∑ q ∈ Finset.range k, f q :=
  Finset.sum_nbij' σ τ (fun p hp => Finset.mem_range.2 (h.fwd p (Finset.mem_range.1 hp)).1) (fun q hq => Finset.mem_range.2 (h.back q (Finset.mem_range.1 hq)).1)
    (fun p hp => (h.fwd p (Finset.mem_range.1 hp)).2) (fun q hq => (h.back q (Finset.mem_range.1 hq)).2) fun _ _ => rfl

theorem kept_perm {n k : ℕ} {σ τ : ℕ → ℕ} (hσ : InvPerm k σ τ) {φ φ' : ℕ → St} {S S' : NMat} (hS : ∀ i < k, ∀ j < k, S i j = inner n (φ i) (φ j))
    (hS' : ∀ i < k, ∀ j < k, S' i j = inner n (φ' i) (φ' j)) (hu : ∀ p < k, φ' p = φ (σ p)) {v : ℕ → ℂ} (hv : KeptVec k S' v) :
    ∃ w, KeptVec k S w ∧ spanState k φ' v = spanState k φ w := by
  obtain ⟨t, ht, he⟩ := hv
  refine ⟨fun q => v (τ q), ⟨t, ht, fun i hi => ?_⟩, ?_⟩
  · obtain ⟨b1, b2⟩ := hσ.back i hi
    rw [← he _ b1, ← hσ.sum (fun q => S i q * v (τ q))]
    refine Finset.sum_congr rfl fun p hp => ?_
    have hp := Finset.mem_range.1 hp
    obtain ⟨a1, a2⟩ := hσ.fwd p hp
    rw [a2, hS i hi _ a1, hS' _ b1 p hp, hu _ b1, b2, hu p hp]
  · unfold spanState
    rw [← hσ.sum (fun q => v (τ q) • φ q)]
    refine Finset.sum_congr rfl fun p hp => ?_
    have hp := Finset.mem_range.1 hp
    rw [hu p hp, (hσ.fwd p hp).2]

/-- C122, for any states given in another order -/
theorem C122_ritz {eig : EigOracle} (hE : DescEig eig) {n k : ℕ} {H : Op} (hH : ∀ φ ψ, inner n φ (H ψ) = inner n (H φ) ψ) {σ τ : ℕ → ℕ} (hσ : InvPerm k σ τ)
    {φ φ' : ℕ → St} {M M' : NMat × NMat} (hG : GramOf n k H φ M.1 M.2) (hG' : GramOf n k H φ' M'.1 M'.2) (hu : ∀ p < k, φ' p = φ (σ p))
    {t t' : ℤ} {R R' : QsdResult} (h : qsdRun eig k t M = .ok R) (h' : qsdRun eig k t' M' = .ok R') : R'.eigenvalues = R.eigenvalues := by
  have := affine_kept hE (a := 1) (c := 0) one_pos (by simp) hH hG hG' (fun v hv => kept_perm hσ hG.overlap hG'.overlap hu hv)
    (fun v hv => kept_perm hσ.symm hG'.overlap hG.overlap (fun q hq => by rw [hu _ (hσ.back q hq).1, (hσ.back q hq).2]) hv) h h'
  rw [this]
  conv_rhs => rw [← List.map_id R.eigenvalues]
  exact List.map_congr_left fun z _ => by simp

/-- a permutation of a list as a permutation of its indices -/
theorem perm_indices {α : Type} {l l' : List α} (h : l'.Perm l) : ∃ σ τ : ℕ → ℕ, InvPerm l.length σ τ ∧ ∀ i < l.length, l'[i]? = l[σ i]? := by
  have h0 : List.Forall₂ (fun z i => l[i]? = some z) l (List.range l.length) := by
    refine List.forall₂_iff_get.2 ⟨by simp, fun i h1 h2 => ?_⟩
    simp [List.getElem?_eq_getElem h1]
  obtain ⟨m, hm, hF⟩ := List.perm_comp_forall₂ h h0
  have len : m.length = l'.length := hm.length_eq.symm
  have len2 : m.length = l.length := by rw [len, h.length_eq]
  have nd : m.Nodup := hF.nodup_iff.2 List.nodup_range
  have hlt : ∀ i (hi : i < m.length), m[i] < l.length := fun i hi => List.mem_range.1 (hF.mem_iff.1 (List.getElem_mem hi))
  refine ⟨fun i => m.getD i 0, fun j => m.idxOf j, ⟨fun p hp => ?_, fun q hq => ?_⟩, fun i hi => ?_⟩
  · have hp' : p < m.length := by omega
    simp only [List.getD_eq_getElem _ _ hp']
    exact ⟨hlt p hp', nd.idxOf_getElem p hp'⟩
  · have hq' : q ∈ m := hF.mem_iff.2 (List.mem_range.2 hq)
    have hi := List.idxOf_lt_length_iff.2 hq'
    refine ⟨by omega, ?_⟩
    simp only [List.getD_eq_getElem _ _ hi]
    exact List.getElem_idxOf hi
  · have hi' : i < m.length := by omega
    have hi2 : i < l'.length := by omega
    have := (List.forall₂_iff_get.1 hm).2 i hi2 hi'
    simp only [List.getD_eq_getElem _ _ hi']
    simp only [List.get_eq_getElem] at this
    rw [this, List.getElem?_eq_getElem hi2]

/-- C122: MRSQK with the references in another order finds the same energies -/
theorem C122_mrsqk {eig : EigOracle} (hE : DescEig eig) (A : QkAlg) (hA : A.Ready) (refs refs' : List (List ℕ)) (hR : ∀ r ∈ refs, Occ r ∧ r.length = A.nqb ∧ 1 ∈ r)
    (hne : refs ≠ []) (h0 : 1 ≤ A.nstates) (hp : refs'.Perm refs) {t t' : ℤ} {R R' : QsdResult}
    (h : A.mrsqkRun eig refs t = .ok R) (h' : A.mrsqkRun eig refs' t' = .ok R') : R'.eigenvalues = R.eigenvalues := by
  have hR' : ∀ r ∈ refs', Occ r ∧ r.length = A.nqb ∧ 1 ∈ r := fun r hr => hR r (hp.mem_iff.1 hr)
  have hne' : refs' ≠ [] := fun e => hne (by rw [e] at hp; exact hp.nil_eq.symm)
  obtain ⟨S1, H1, ψ, φ, e, -, hψ, at1, hG, -, -⟩ := mrsqk_gram A hA refs hR hne h0
  obtain ⟨S2, H2, ψ', φ', e', -, hψ', at1', hG', -, -⟩ := mrsqk_gram A hA refs' hR' hne' h0
  unfold QkAlg.mrsqkRun at h h'
  rw [e, except_ok_bind] at h
  rw [e', except_ok_bind, hp.length_eq] at h'
  rw [hp.length_eq] at hG'
  obtain ⟨σ, τ, hσ, hi⟩ := perm_indices hp
  have blk : ∀ {σ τ : ℕ → ℕ}, InvPerm refs.length σ τ → ∀ p < refs.length * A.nstates, σ (p / A.nstates) * A.nstates + p % A.nstates < refs.length * A.nstates ∧
      (σ (p / A.nstates) * A.nstates + p % A.nstates) / A.nstates = σ (p / A.nstates) ∧ (σ (p / A.nstates) * A.nstates + p % A.nstates) % A.nstates = p % A.nstates := by
    intro σ τ hσ p hp
    have h1 : p / A.nstates < refs.length := Nat.div_lt_of_lt_mul (by rwa [mul_comm])
    have h2 : p % A.nstates < A.nstates := Nat.mod_lt _ (by omega)
    have h3 := (hσ.fwd _ h1).1
    refine ⟨?_, ?_, ?_⟩
    · calc σ (p / A.nstates) * A.nstates + p % A.nstates < σ (p / A.nstates) * A.nstates + A.nstates := by omega
        _ = (σ (p / A.nstates) + 1) * A.nstates := by ring
        _ ≤ refs.length * A.nstates := Nat.mul_le_mul_right _ h3
    · rw [Nat.add_div_of_dvd_right (Dvd.intro_left _ rfl), Nat.mul_div_cancel _ (by omega), Nat.div_eq_of_lt h2, add_zero]
    · rw [Nat.mul_comm, Nat.mul_add_mod, Nat.mod_eq_of_lt h2]
  have hb : InvPerm (refs.length * A.nstates) (fun p => σ (p / A.nstates) * A.nstates + p % A.nstates) (fun p => τ (p / A.nstates) * A.nstates + p % A.nstates) := by
    refine ⟨fun p hp => ?_, fun p hp => ?_⟩
    · obtain ⟨b1, b2, b3⟩ := blk hσ p hp
      refine ⟨b1, ?_⟩
      simp only [b2, b3]
      rw [(hσ.fwd _ (Nat.div_lt_of_lt_mul (by rwa [mul_comm]))).2, Nat.div_add_mod']
    · obtain ⟨b1, b2, b3⟩ := blk hσ.symm p hp
      refine ⟨b1, ?_⟩
      simp only [b2, b3]
      rw [(hσ.back _ (Nat.div_lt_of_lt_mul (by rwa [mul_comm]))).2, Nat.div_add_mod']
  refine C122_ritz hE (hermitian_of_real hA.ham) hb hG hG' (fun p hlt => ?_) h h'
  have h1 : p / A.nstates < refs.length := Nat.div_lt_of_lt_mul (by rw [mul_comm]; exact hlt)
  have h2 : p % A.nstates < A.nstates := Nat.mod_lt _ (by omega)
  have h3 := (hσ.fwd _ h1).1
  have a1 := at1 (σ (p / A.nstates)) _ (List.getElem?_eq_getElem h3) _ h2
  have hr := hi _ h1
  rw [List.getElem?_eq_getElem h3] at hr
  have a2 := at1' (p / A.nstates) _ hr _ h2
  rw [Nat.div_add_mod'] at a2
  rw [a1, a2]
  have hmem := List.getElem_mem h3
  exact (hψ' _ (hp.mem_iff.2 hmem) _).unique (hψ _ hmem _)

end QF
