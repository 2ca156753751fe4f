import Verif.Model.SQOperator
import Verif.Lemmas.Kernel
import Mathlib.GroupTheory.Perm.Sign

/-! Parity of the permutation computed by `permutation_phase`. -/
namespace QF
namespace SQOperator

/-- the list `[σ 0, σ 1, …]` -/
def permList {n : ℕ} (σ : Equiv.Perm (Fin n)) : List ℕ := List.ofFn fun i => (σ i : ℕ)

theorem permList_length {n : ℕ} (σ : Equiv.Perm (Fin n)) : (permList σ).length = n := by simp [permList]

theorem permList_get {n : ℕ} (σ : Equiv.Perm (Fin n)) (i : Fin n) : (permList σ)[(i : ℕ)]? = some (σ i : ℕ) := by
  simp [permList]

theorem permList_step {n : ℕ} (σ : Equiv.Perm (Fin n)) (i : Fin n) (h : σ i ≠ i) :
    ((permList σ).set i (σ (σ i) : ℕ)).set (σ i : ℕ) (σ i : ℕ) = permList (σ * Equiv.swap i (σ i)) := by
  apply List.ext_getElem?
  intro j
  by_cases hj : j < n
  · have e : j = ((⟨j, hj⟩ : Fin n) : ℕ) := rfl
    generalize (⟨j, hj⟩ : Fin n) = J at e
    subst e
    rw [permList_get]
    by_cases h1 : J = σ i
    · subst h1
      rw [List.getElem?_set_self (by simp [permList_length])]
      simp [Equiv.Perm.mul_apply]
    · rw [List.getElem?_set_ne (by intro e; exact h1 (Fin.ext e.symm))]
      by_cases h2 : J = i
      · subst h2
        rw [List.getElem?_set_self (by simp [permList_length])]
        simp [Equiv.Perm.mul_apply]
      · rw [List.getElem?_set_ne (by intro e; exact h2 (Fin.ext e.symm)), permList_get]
        simp [Equiv.Perm.mul_apply, Equiv.swap_apply_of_ne_of_ne h2 h1]
  · rw [List.getElem?_eq_none (by simp [permList_length]; omega), List.getElem?_eq_none (by simp [permList_length]; omega)]

theorem phaseWhile_perm {n : ℕ} (i : Fin n) : ∀ (m : ℕ) (σ : Equiv.Perm (Fin n)) (cnt : ℕ), (unfixed (permList σ)).card < m →
    ∃ (σ' : Equiv.Perm (Fin n)) (cnt' : ℕ), phaseWhile (permList σ) i cnt = .ok (permList σ', cnt') ∧
      Equiv.Perm.sign σ' * (-1) ^ cnt' = Equiv.Perm.sign σ * (-1) ^ cnt ∧ σ' i = i ∧ ∀ j, σ j = j → σ' j = j := by
  intro m
  induction m with
  | zero => intro σ cnt h; omega
  | succ m ih =>
    intro σ cnt hm
    by_cases h : σ i = i
    · refine ⟨σ, cnt, ?_, rfl, h, fun j hj => hj⟩
      rw [phaseWhile]
      split
      · rename_i e; rw [permList_get] at e; cases e
      · rename_i k e; rw [permList_get] at e; cases e
        simp [h]
    · have hne : σ (σ i) ≠ σ i := fun e => h (σ.injective e)
      have hd := unfixed_decreases (permList σ) i (σ i) (σ (σ i)) (permList_get σ i) (fun e => h (Fin.ext e))
        (permList_get σ (σ i)) (fun e => hne (Fin.ext e))
      rw [permList_step σ i h] at hd
      obtain ⟨σ', cnt', h1, h2, h3, h4⟩ := ih (σ * Equiv.swap i (σ i)) (cnt + 1) (by omega)
      refine ⟨σ', cnt', ?_, ?_, h3, ?_⟩
      · rw [phaseWhile]
        split
        · rename_i e; rw [permList_get] at e; cases e
        · rename_i k e; rw [permList_get] at e; cases e
          rw [dif_neg (fun e => h (Fin.ext e))]
          split
          · rename_i e; rw [permList_get] at e; cases e
          · rename_i x e; rw [permList_get] at e; cases e
            rw [dif_neg (fun e => hne (Fin.ext e)), permList_step σ i h]
            exact h1
      · rw [h2, Equiv.Perm.sign_mul, Equiv.Perm.sign_swap (fun e => h e.symm), pow_succ]
        rw [mul_assoc, mul_comm ((-1 : ℤˣ) ^ cnt) (-1), ← mul_assoc (-1 : ℤˣ)]; simp
      · intro j hj
        apply h4
        rw [Equiv.Perm.mul_apply, Equiv.swap_apply_of_ne_of_ne, hj]
        · intro e; subst e; exact h hj
        · intro e; subst e; exact hne hj

theorem phase_fold {n : ℕ} (σ : Equiv.Perm (Fin n)) : ∀ m ≤ n, ∃ (σ' : Equiv.Perm (Fin n)) (cnt' : ℕ),
    (List.range m).foldlM (fun s i => phaseWhile s.1 i s.2) (permList σ, 0) = .ok (permList σ', cnt') ∧
      Equiv.Perm.sign σ' * (-1) ^ cnt' = Equiv.Perm.sign σ ∧ ∀ j : Fin n, (j : ℕ) < m → σ' j = j := by
  intro m
  induction m with
  | zero => intro _; exact ⟨σ, 0, rfl, by simp, fun j hj => by omega⟩
  | succ m ih =>
    intro hm
    obtain ⟨σ1, c1, h1, h2, h3⟩ := ih (by omega)
    obtain ⟨σ2, c2, g1, g2, g3, g4⟩ := phaseWhile_perm (⟨m, hm⟩ : Fin n) _ σ1 c1 (Nat.lt_succ_self _)
    refine ⟨σ2, c2, ?_, by rw [g2, h2], ?_⟩
    · rw [List.range_succ, List.foldlM_append, h1]
      simp only [except_ok_bind, List.foldlM_cons, List.foldlM_nil]
      rw [show phaseWhile (permList σ1) m c1 = _ from g1]; rfl
    · intro j hj
      by_cases e : (j : ℕ) = m
      · have : j = ⟨m, hm⟩ := Fin.ext e
        subst this; exact g3
      · exact g4 j (h3 j (by omega))

theorem permutationPhase_perm {n : ℕ} (σ : Equiv.Perm (Fin n)) :
    permutationPhase (permList σ) = .ok (decide (Equiv.Perm.sign σ = -1)) := by
  obtain ⟨σ', c, h1, h2, h3⟩ := phase_fold σ n le_rfl
  have e : σ' = 1 := by ext j; simp [h3 j j.2]
  subst e
  unfold permutationPhase
  rw [permList_length, h1]
  simp only [except_ok_bind, pure, Except.pure]
  congr 1
  rw [Equiv.Perm.sign_one, one_mul] at h2
  rw [← h2]
  rcases Nat.even_or_odd c with hc | hc
  · rw [hc.neg_one_pow]; simp [Nat.even_iff.mp hc]; 
  · rw [hc.neg_one_pow]; simp [Nat.odd_iff.mp hc]

/-- every rearrangement of `0, …, n-1` is the list of a permutation -/
theorem exists_permList (l : List ℕ) (n : ℕ) (h : l.Perm (List.range n)) : ∃ σ : Equiv.Perm (Fin n), l = permList σ := by
  have hl : l.length = n := by simpa using h.length_eq
  have hnd : l.Nodup := h.nodup_iff.mpr List.nodup_range
  have hlt : ∀ i : Fin n, l[(i : ℕ)]'(by omega) < n := fun i => by
    have := h.mem_iff.mp (List.getElem_mem (show (i : ℕ) < l.length by omega)); simpa using this
  let f : Fin n → Fin n := fun i => ⟨l[(i : ℕ)]'(by omega), hlt i⟩
  have hf : Function.Injective f := by
    intro a b hab
    have : l[(a : ℕ)]'(by omega) = l[(b : ℕ)]'(by omega) := by simpa [f] using hab
    exact Fin.ext ((List.Nodup.getElem_inj_iff hnd).mp this)
  refine ⟨Equiv.ofBijective f (Finite.injective_iff_bijective.mp hf), ?_⟩
  apply List.ext_getElem
  · simp [permList, hl]
  · intro i h1 h2; simp [permList, f]

end SQOperator
end QF
