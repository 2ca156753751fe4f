import Verif.Spec.Fermion
import Verif.Spec.Bits
import Verif.Lemmas.PermPhase
import Mathlib.GroupTheory.Perm.Fin

/-! Canonical anticommutation relations and reordering of products of ladder operators. -/
namespace QF

theorem nBelow_succ (I p : ℕ) : nBelow I (p + 1) = nBelow I p + if I.testBit p then 1 else 0 := by
  unfold nBelow
  rw [List.range_succ, List.countP_append, List.countP_singleton]

theorem fsign_zero (I : ℕ) : fsign I 0 = 1 := by simp [fsign, nBelow]

theorem fsign_succ (I p : ℕ) : fsign I (p + 1) = fsign I p * if I.testBit p then -1 else 1 := by
  unfold fsign
  rw [nBelow_succ, pow_add]
  split_ifs <;> simp

theorem fsign_sq (I p : ℕ) : fsign I p * fsign I p = 1 := by
  unfold fsign; rw [← pow_add]; exact Even.neg_one_pow ⟨_, rfl⟩

theorem fsign_flip (I p q : ℕ) : fsign (flipBit I p) q = if p < q then -fsign I q else fsign I q := by
  induction q with
  | zero => simp [fsign_zero]
  | succ q ih =>
    rw [fsign_succ, fsign_succ, ih, testBit_flipBit]
    rcases lt_trichotomy p q with h | h | h
    · have h1 : ¬ q = p := by omega
      have h2 : p < q + 1 := by omega
      simp only [h, h1, h2, if_true, if_false]; ring
    · subst h
      rcases hb : I.testBit p <;> simp
    · have h1 : ¬ q = p := by omega
      have h2 : ¬ p < q + 1 := by omega
      have h3 : ¬ p < q := by omega
      simp [h1, h2, h3]

theorem flipBit_comm (I p q : ℕ) : flipBit (flipBit I p) q = flipBit (flipBit I q) p := by
  apply Nat.eq_of_testBit_eq
  intro j
  simp only [testBit_flipBit]
  by_cases e : p = q
  · subst e; rfl
  · by_cases h1 : j = p
    · subst h1; simp [e]
    · by_cases h2 : j = q
      · subst h2; simp [h1]
      · simp [h1, h2]

theorem ladder_apply (b : Bool) (p : ℕ) (ψ : St) (I : ℕ) :
    ladder b p ψ I = if I.testBit p = b then fsign I p * ψ (flipBit I p) else 0 := rfl

theorem qladder_apply (b : Bool) (p : ℕ) (ψ : St) (I : ℕ) :
    qladder b p ψ I = if I.testBit p = b then ψ (flipBit I p) else 0 := rfl

/-- ladder operators on different orbitals anticommute -/
theorem ladder_anticomm_ne (b c : Bool) {p q : ℕ} (h : p ≠ q) : ladder b p * ladder c q = -(ladder c q * ladder b p) := by
  apply Op.ext'
  intro ψ I
  rw [LinearMap.neg_apply, Pi.neg_apply]
  simp only [Module.End.mul_apply, ladder_apply, testBit_flipBit, fsign_flip, flipBit_comm I p q]
  rw [if_neg (Ne.symm h), if_neg h]
  rcases lt_or_gt_of_ne h with h' | h'
  · rw [if_pos h', if_neg (show ¬ q < p by omega)]
    split_ifs <;> ring
  · rw [if_pos (show q < p from h'), if_neg (show ¬ p < q by omega)]
    split_ifs <;> ring

theorem ladder_sq (b : Bool) (p : ℕ) : ladder b p * ladder b p = 0 := by
  apply Op.ext'
  intro ψ I
  simp only [Module.End.mul_apply, ladder_apply, testBit_flipBit, if_true]
  by_cases h : I.testBit p = b
  · rw [if_pos h, if_neg (by rw [h]; cases b <;> simp), mul_zero]; rfl
  · rw [if_neg h]; rfl

theorem ladder_same_anticomm (b : Bool) (p q : ℕ) : ladder b p * ladder b q = -(ladder b q * ladder b p) := by
  by_cases h : p = q
  · subst h; rw [ladder_sq, neg_zero]
  · exact ladder_anticomm_ne b b h

/-- `a_p a_p† + a_p† a_p = 1` -/
theorem ladder_anticomm_self (b : Bool) (p : ℕ) : ladder b p * ladder (!b) p + ladder (!b) p * ladder b p = 1 := by
  apply Op.ext'
  intro ψ I
  rw [LinearMap.add_apply, Pi.add_apply]
  simp only [Module.End.mul_apply, ladder_apply, testBit_flipBit, fsign_flip, if_true, lt_irrefl, if_false, flipBit_flipBit,
    Module.End.one_apply]
  have := fsign_sq I p
  rcases I.testBit p <;> cases b <;> simp [← mul_assoc, this]

/-- qubit ladder operators commute unless they are opposite operators of the same orbital -/
theorem qladder_comm (b c : Bool) (p q : ℕ) (h : p ≠ q ∨ b = c) : qladder b p * qladder c q = qladder c q * qladder b p := by
  by_cases e : p = q
  · subst e
    rcases h with h | h
    · exact absurd rfl h
    · subst h; rfl
  · apply Op.ext'
    intro ψ I
    simp only [Module.End.mul_apply, qladder_apply, testBit_flipBit, flipBit_comm I p q]
    rw [if_neg (Ne.symm e), if_neg e]
    split_ifs <;> rfl

theorem qladder_sq (b : Bool) (p : ℕ) : qladder b p * qladder b p = 0 := by
  apply Op.ext'
  intro ψ I
  simp only [Module.End.mul_apply, qladder_apply, testBit_flipBit, if_true]
  by_cases h : I.testBit p = b
  · rw [if_pos h, if_neg (by rw [h]; cases b <;> simp)]; rfl
  · rw [if_neg h]; rfl

/-! ### reordering products of anticommuting factors -/

theorem prod_ofFn_swap {R : Type*} [Ring R] : ∀ (n : ℕ) (f : Fin (n + 1) → R) (i : Fin n),
    (∀ a b, f a * f b = -(f b * f a)) →
    (List.ofFn fun j => f (Equiv.swap i.castSucc i.succ j)).prod = -(List.ofFn f).prod := by
  intro n
  induction n with
  | zero => intro f i; exact i.elim0
  | succ n ih =>
    intro f i hf
    induction i using Fin.cases with
    | zero =>
      rw [List.ofFn_succ, List.ofFn_succ, List.ofFn_succ (f := f), List.ofFn_succ]
      simp only [List.prod_cons]
      rw [← mul_assoc, ← mul_assoc, ← neg_mul]
      have e1 : f (Equiv.swap (0 : Fin (n + 1)).castSucc (0 : Fin (n + 1)).succ 0) = f (Fin.succ 0) := by
        rw [Fin.castSucc_zero, Equiv.swap_apply_left]
      have e2 : f (Equiv.swap (0 : Fin (n + 1)).castSucc (0 : Fin (n + 1)).succ (Fin.succ 0)) = f 0 := by
        rw [Fin.castSucc_zero, Equiv.swap_apply_right]
      rw [e1, e2, hf (Fin.succ 0) 0]
      have e3 : (fun j : Fin n => f (Equiv.swap (0 : Fin (n + 1)).castSucc (0 : Fin (n + 1)).succ j.succ.succ)) = fun j => f j.succ.succ := by
        funext j
        rw [Equiv.swap_apply_of_ne_of_ne]
        · exact Fin.succ_ne_zero _
        · intro h; exact Fin.succ_ne_zero _ (Fin.succ_injective _ h)
      rw [e3]
    | succ i =>
      rw [List.ofFn_succ, List.ofFn_succ (f := f)]
      simp only [List.prod_cons]
      rw [← mul_neg, ← ih (fun j => f j.succ) i (fun a b => hf _ _)]
      have e1 : f (Equiv.swap i.succ.castSucc i.succ.succ 0) = f 0 := by
        rw [Equiv.swap_apply_of_ne_of_ne]
        · rw [Fin.castSucc_succ]; exact (Fin.succ_ne_zero _).symm
        · exact (Fin.succ_ne_zero _).symm
      have e2 : (fun j : Fin (n + 1) => f (Equiv.swap i.succ.castSucc i.succ.succ j.succ)) =
          fun j => f (Equiv.swap i.castSucc i.succ j).succ := by
        funext j
        rw [Fin.castSucc_succ]
        exact congrArg f ((Fin.succ_injective (n + 1)).map_swap _ _ _).symm
      rw [e1, e2]

theorem prod_ofFn_perm {R : Type*} [Ring R] : ∀ (n : ℕ) (f : Fin n → R) (σ : Equiv.Perm (Fin n)),
    (∀ a b, f a * f b = -(f b * f a)) →
    (List.ofFn fun j => f (σ j)).prod = ((Equiv.Perm.sign σ : ℤ) : R) * (List.ofFn f).prod := by
  intro n f σ hf
  cases n with
  | zero => rw [Subsingleton.elim σ 1]; simp
  | succ n =>
    have h : σ ∈ Submonoid.closure (Set.range fun i : Fin n => Equiv.swap i.castSucc i.succ) := by
      rw [Equiv.Perm.mclosure_swap_castSucc_succ]; trivial
    induction h using Submonoid.closure_induction generalizing f with
    | mem x hx =>
      obtain ⟨i, rfl⟩ := hx
      rw [prod_ofFn_swap n f i hf, Equiv.Perm.sign_swap (by simp [Fin.ext_iff])]
      simp
    | one => simp
    | mul x y _ _ hx hy =>
      have h1 := hy (fun j => f (x j)) (fun a b => hf _ _)
      have h2 := hx f hf
      simp only [Equiv.Perm.mul_apply]
      rw [h1, h2, Equiv.Perm.sign_mul, ← mul_assoc]
      congr 1
      rw [← Int.cast_mul, ← Units.val_mul, mul_comm]

theorem prod_ofFn_perm_comm {R : Type*} [Ring R] (n : ℕ) (f : Fin n → R) (σ : Equiv.Perm (Fin n))
    (hf : ∀ a b, f a * f b = f b * f a) : (List.ofFn fun j => f (σ j)).prod = (List.ofFn f).prod := by
  apply List.Perm.prod_eq'
  · have : (List.ofFn fun j => f (σ j)) = (List.ofFn σ).map f := by rw [List.map_ofFn]; rfl
    rw [this]
    have h2 : List.ofFn f = (List.ofFn id).map f := by rw [List.map_ofFn]; rfl
    rw [h2]
    apply List.Perm.map
    exact Equiv.Perm.ofFn_comp_perm σ id
  · rw [List.pairwise_ofFn]
    intro i j _
    exact hf _ _

end QF
