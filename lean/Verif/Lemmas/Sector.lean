import Verif.Spec.Sectors
import Verif.Spec.Compact
import Verif.Spec.UCC
import Verif.Spec.Charge

/-!
Operators that keep symmetry sectors: excitations, their exponentials and products of these.
-/
namespace QF

/-- `A` does not leave the sectors of the quantity `Q`: a determinant occurs in `A ψ` only if one with the same `Q` occurs in `ψ` -/
def Keeps {α : Type*} (Q : ℕ → α) (A : Op) : Prop := ∀ (ψ : St) (I : ℕ), A ψ I ≠ 0 → ∃ J, ψ J ≠ 0 ∧ Q I = Q J

theorem Keeps.one {α : Type*} (Q : ℕ → α) : Keeps Q 1 := fun _ I h => ⟨I, h, rfl⟩

theorem Keeps.mul {α : Type*} {Q : ℕ → α} {A B : Op} (hA : Keeps Q A) (hB : Keeps Q B) : Keeps Q (A * B) := by
  intro ψ I h
  obtain ⟨J, h1, h2⟩ := hA (B ψ) I h
  obtain ⟨K, h3, h4⟩ := hB ψ J h1
  exact ⟨K, h3, h2.trans h4⟩

theorem Keeps.pow {α : Type*} {Q : ℕ → α} {A : Op} (hA : Keeps Q A) (k : ℕ) : Keeps Q (A ^ k) := by
  induction k with
  | zero => exact Keeps.one Q
  | succ k ih => rw [pow_succ]; exact ih.mul hA

theorem Keeps.smul {α : Type*} {Q : ℕ → α} {A : Op} (hA : Keeps Q A) (z : ℂ) : Keeps Q (z • A) := by
  intro ψ I h
  refine hA ψ I fun h0 => h ?_
  rw [LinearMap.smul_apply, Pi.smul_apply, h0, smul_zero]

theorem Keeps.sub {α : Type*} {Q : ℕ → α} {A B : Op} (hA : Keeps Q A) (hB : Keeps Q B) : Keeps Q (A - B) := by
  intro ψ I h
  by_cases h0 : A ψ I = 0
  · refine hB ψ I fun h1 => h ?_
    rw [LinearMap.sub_apply, Pi.sub_apply, h0, h1, sub_zero]
  · exact hA ψ I h0

/-- the exponential keeps what the exponent keeps -/
theorem Keeps.exp {α : Type*} {Q : ℕ → α} {K U : Op} (hK : Keeps Q K) (hU : IsExp K U) : Keeps Q U := by
  intro ψ I h
  by_contra hn
  apply h
  have : ∀ k : ℕ, ((k.factorial : ℂ))⁻¹ * (K ^ k) ψ I = 0 := by
    intro k
    by_cases h0 : (K ^ k) ψ I = 0
    · rw [h0, mul_zero]
    · exact absurd (hK.pow k ψ I h0) hn
  have h1 := hU ψ I
  simp only [this] at h1
  exact h1.unique hasSum_zero

theorem Keeps.inOrder {α : Type*} {Q : ℕ → α} {Us : List Op} (h : ∀ U ∈ Us, Keeps Q U) : Keeps Q (applyInOrder Us) := by
  induction Us with
  | nil => exact Keeps.one Q
  | cons U Us ih => exact (ih fun V hV => h V (by simp [hV])).mul (h U (by simp))

theorem Keeps.of_comp {α β : Type*} {Q : ℕ → α} {A : Op} (h : Keeps Q A) (f : α → β) : Keeps (fun I => f (Q I)) A := fun ψ I hI => by
  obtain ⟨J, h1, h2⟩ := h ψ I hI
  exact ⟨J, h1, by show f (Q I) = f (Q J); rw [h2]⟩

/-! ### additive charges -/

section
variable {G : Type*} [AddCommGroup G]

/-- the charge of the determinant `I`, orbital `p` contributing `w p` -/
def detCharge (w : ℕ → G) (n I : ℕ) : G := ∑ p ∈ Finset.range n, if I.testBit p then w p else 0

/-- `A` adds the charge `g` -/
def Shifts (w : ℕ → G) (n : ℕ) (g : G) (A : Op) : Prop := ∀ (ψ : St) (I : ℕ), A ψ I ≠ 0 → ∃ J, ψ J ≠ 0 ∧ detCharge w n I = detCharge w n J + g

theorem detCharge_flip (w : ℕ → G) {n p : ℕ} (hp : p < n) (I : ℕ) (h : I.testBit p = true) : detCharge w n I = detCharge w n (flipBit I p) + w p := by
  unfold detCharge
  rw [← Finset.add_sum_erase _ _ (Finset.mem_range.2 hp), ← Finset.add_sum_erase (Finset.range n) (fun q => if (flipBit I p).testBit q then w q else 0) (Finset.mem_range.2 hp)]
  have e : ∑ q ∈ (Finset.range n).erase p, (if I.testBit q then w q else 0) = ∑ q ∈ (Finset.range n).erase p, if (flipBit I p).testBit q then w q else 0 := by
    apply Finset.sum_congr rfl
    intro q hq
    rw [testBit_flipBit]
    have := Finset.ne_of_mem_erase hq
    simp [this]
  rw [e, testBit_flipBit]
  simp [h, add_comm]

theorem shifts_of_flip (w : ℕ → G) {n p : ℕ} (hp : p < n) (b : Bool) {A : Op} (hA : ∀ ψ I, A ψ I ≠ 0 → I.testBit p = b ∧ ψ (flipBit I p) ≠ 0) :
    Shifts w n (if b then w p else -w p) A := by
  intro ψ I h
  obtain ⟨h1, h2⟩ := hA ψ I h
  refine ⟨flipBit I p, h2, ?_⟩
  cases b with
  | true => simpa using detCharge_flip w hp I h1
  | false =>
    have h3 : (flipBit I p).testBit p = true := by rw [testBit_flipBit]; simp [h1]
    have h4 := detCharge_flip w hp _ h3
    rw [flipBit_flipBit] at h4
    rw [h4]; simp

theorem Shifts.one (w : ℕ → G) (n : ℕ) : Shifts w n 0 1 := fun ψ I h => ⟨I, h, by simp⟩

theorem Shifts.mul {w : ℕ → G} {n : ℕ} {g h : G} {A B : Op} (hA : Shifts w n g A) (hB : Shifts w n h B) : Shifts w n (g + h) (A * B) := by
  intro ψ I hI
  obtain ⟨J, h1, h2⟩ := hA (B ψ) I hI
  obtain ⟨K, h3, h4⟩ := hB ψ J h1
  exact ⟨K, h3, by rw [h2, h4]; abel⟩

theorem shifts_prod (w : ℕ → G) {n : ℕ} (b : Bool) (f : ℕ → Op) (hf : ∀ p < n, Shifts w n (if b then w p else -w p) (f p)) {l : List ℕ} (hl : ∀ p ∈ l, p < n) :
    Shifts w n (if b then (l.map w).sum else -(l.map w).sum) (l.map f).prod := by
  induction l with
  | nil => cases b <;> simpa using Shifts.one w n
  | cons p l ih =>
    have := (hf p (hl p (by simp))).mul (ih fun q hq => hl q (by simp [hq]))
    rw [List.map_cons (f := f), List.prod_cons, List.map_cons, List.sum_cons]
    cases b with
    | true => simpa using this
    | false => simpa [neg_add, add_comm] using this

theorem shifts_ladder (w : ℕ → G) {n p : ℕ} (hp : p < n) (b : Bool) : Shifts w n (if b then w p else -w p) (ladder b p) :=
  shifts_of_flip w hp b fun ψ I h => by
    change (if I.testBit p = b then fsign I p * ψ (flipBit I p) else 0) ≠ 0 at h
    by_cases hb : I.testBit p = b
    · rw [if_pos hb] at h; exact ⟨hb, right_ne_zero_of_mul h⟩
    · rw [if_neg hb] at h; exact absurd rfl h

theorem shifts_qladder (w : ℕ → G) {n p : ℕ} (hp : p < n) (b : Bool) : Shifts w n (if b then w p else -w p) (qladder b p) :=
  shifts_of_flip w hp b fun ψ I h => by
    change (if I.testBit p = b then ψ (flipBit I p) else 0) ≠ 0 at h
    by_cases hb : I.testBit p = b
    · rw [if_pos hb] at h; exact ⟨hb, h⟩
    · rw [if_neg hb] at h; exact absurd rfl h

theorem shifts_fermi (w : ℕ → G) {n : ℕ} {c a : List ℕ} (hc : ∀ p ∈ c, p < n) (ha : ∀ p ∈ a, p < n) : Shifts w n ((c.map w).sum - (a.map w).sum) (fermiString c a) := by
  have h1 := shifts_prod w true (ladder true) (fun p hp => shifts_ladder w hp true) hc
  have h2 := shifts_prod w false (ladder false) (fun p hp => shifts_ladder w hp false) ha
  have := h1.mul h2
  simp only [if_true, Bool.false_eq_true, if_false, ← sub_eq_add_neg] at this
  exact this

theorem shifts_qubit (w : ℕ → G) {n : ℕ} {c a : List ℕ} (hc : ∀ p ∈ c, p < n) (ha : ∀ p ∈ a, p < n) : Shifts w n ((c.map w).sum - (a.map w).sum) (qubitString c a) := by
  have h1 := shifts_prod w true (qladder true) (fun p hp => shifts_qladder w hp true) hc
  have h2 := shifts_prod w false (qladder false) (fun p hp => shifts_qladder w hp false) ha
  have := h1.mul h2
  simp only [if_true, Bool.false_eq_true, if_false, ← sub_eq_add_neg] at this
  exact this

theorem Shifts.keeps {w : ℕ → G} {n : ℕ} {A : Op} (h : Shifts w n 0 A) : Keeps (detCharge w n) A := fun ψ I hI => by
  obtain ⟨J, h1, h2⟩ := h ψ I hI
  exact ⟨J, h1, by rw [h2, add_zero]⟩

/-- an excitation that creates as much charge as it annihilates keeps the charge, fermionic or qubit -/
theorem keeps_kappa (w : ℕ → G) {n : ℕ} (q : Bool) {c a : List ℕ} (hc : ∀ p ∈ c, p < n) (ha : ∀ p ∈ a, p < n) (h : (c.map w).sum = (a.map w).sum) :
    Keeps (detCharge w n) (kappa q c a) := by
  have hr : ∀ l : List ℕ, (l.reverse.map w).sum = (l.map w).sum := fun l => by rw [List.map_reverse, List.sum_reverse]
  have ha' : ∀ p ∈ a.reverse, p < n := fun p hp => ha p (List.mem_reverse.1 hp)
  have hc' : ∀ p ∈ c.reverse, p < n := fun p hp => hc p (List.mem_reverse.1 hp)
  unfold kappa
  cases q with
  | true =>
    have h1 := shifts_qubit w hc ha
    have h2 := shifts_qubit w ha' hc'
    rw [hr, hr, h, sub_self] at *
    rw [if_pos rfl]
    exact h1.keeps.sub h2.keeps
  | false =>
    have h1 := shifts_fermi w hc ha
    have h2 := shifts_fermi w ha' hc'
    rw [hr, hr, h, sub_self] at *
    rw [if_neg (by simp)]
    exact h1.keeps.sub h2.keeps

end

/-! ### particle number, spin and irrep at once -/

/-- electron number, spin projection, the bits of the irrep -/
noncomputable def symWeight (orb : List ℕ) (p : ℕ) : ℤ × ℝ × (ℕ → ZMod 2) :=
  (1, if p % 2 = 0 then 1 / 2 else -1 / 2, fun b => if (orb.getD (p / 2) 0).testBit b then 1 else 0)

/-- an excitation that respects spin and spatial symmetry -/
structure SymExc (orb : List ℕ) (c a : List ℕ) : Prop where
  number : c.length = a.length
  spin : (c.countP fun p => p % 2 == 0) = a.countP fun p => p % 2 == 0
  sym : irrepOf orb (a ++ c) = 0

/-- what a determinant's symmetry is -/
noncomputable def symOf (orb : List ℕ) (n I : ℕ) : ℕ × ℝ × ℕ := (electrons n I, spinOf n I, detIrrep orb n I)

theorem bool_zmod (a b : Bool) : (if (a ^^ b) = true then (1 : ZMod 2) else 0) = (if a = true then 1 else 0) + (if b = true then 1 else 0) := by
  cases a <;> cases b <;> decide

theorem irrepOf_testBit (orb : List ℕ) (l : List ℕ) (b : ℕ) :
    (if (irrepOf orb l).testBit b then (1 : ZMod 2) else 0) = (l.map fun p => (if (orb.getD (p / 2) 0).testBit b then (1 : ZMod 2) else 0)).sum := by
  unfold irrepOf
  induction l with
  | nil => simp
  | cons p l ih =>
    rw [List.map_cons, List.foldr_cons, Nat.testBit_xor, bool_zmod, ih, List.map_cons, List.sum_cons]

theorem zmod_bool {a b : Bool} (h : (if a = true then (1 : ZMod 2) else 0) = if b = true then 1 else 0) : a = b := by
  revert h; cases a <;> cases b <;> decide

theorem sum_filter_range {M : Type*} [AddCommMonoid M] (f : ℕ → M) (q : ℕ → Bool) (n : ℕ) :
    (((List.range n).filter q).map f).sum = ∑ p ∈ Finset.range n, if q p then f p else 0 := by
  induction n with
  | zero => simp
  | succ n ih =>
    rw [List.range_succ, List.filter_append, List.map_append, List.sum_append, ih, Finset.sum_range_succ]
    congr 1
    by_cases h : q n <;> simp [h]

theorem symOf_eq {orb : List ℕ} {n I J : ℕ} (h : detCharge (symWeight orb) n I = detCharge (symWeight orb) n J) : symOf orb n I = symOf orb n J := by
  unfold detCharge at h
  have h1 := congrArg Prod.fst h
  have h2 := congrArg (fun x => x.2.1) h
  have h3 := congrArg (fun x => x.2.2) h
  have i1 : ∀ K : ℕ, (∑ p ∈ Finset.range n, if K.testBit p then symWeight orb p else 0).1 = (electrons n K : ℤ) := by
    intro K
    rw [Prod.fst_sum]
    unfold electrons
    rw [Finset.card_filter]
    push_cast
    apply Finset.sum_congr rfl
    intro p _
    by_cases hb : K.testBit p <;> simp [hb, symWeight]
  have i2 : ∀ K : ℕ, (∑ p ∈ Finset.range n, if K.testBit p then symWeight orb p else 0).2.1 = spinOf n K := by
    intro K
    rw [Prod.snd_sum, Prod.fst_sum]
    apply Finset.sum_congr rfl
    intro p _
    by_cases hb : K.testBit p <;> simp [hb, symWeight]
  have i3 : ∀ K b : ℕ, (∑ p ∈ Finset.range n, if K.testBit p then symWeight orb p else 0).2.2 b = if (detIrrep orb n K).testBit b then (1 : ZMod 2) else 0 := by
    intro K b
    unfold detIrrep
    rw [irrepOf_testBit, sum_filter_range, Prod.snd_sum, Prod.snd_sum, Finset.sum_apply]
    apply Finset.sum_congr rfl
    intro p _
    by_cases hb : K.testBit p <;> simp [hb, symWeight]
  rw [i1, i1] at h1
  rw [i2, i2] at h2
  have h4 : detIrrep orb n I = detIrrep orb n J := by
    apply Nat.eq_of_testBit_eq
    intro b
    have := congrFun h3 b
    rw [i3, i3] at this
    exact zmod_bool this
  unfold symOf
  rw [h2, h4, Int.ofNat_inj.1 h1]

theorem symExc_sum {orb : List ℕ} {c a : List ℕ} (h : SymExc orb c a) : (c.map (symWeight orb)).sum = (a.map (symWeight orb)).sum := by
  have f1 : ∀ l : List ℕ, ((l.map (symWeight orb)).sum).1 = (l.length : ℤ) := by
    intro l
    induction l with
    | nil => rfl
    | cons p l ih => rw [List.map_cons, List.sum_cons, Prod.fst_add, ih, List.length_cons]; simp [symWeight]; ring
  have f2 : ∀ l : List ℕ, ((l.map (symWeight orb)).sum).2.1 = ((l.countP fun p => p % 2 == 0) : ℝ) - (l.length : ℝ) / 2 := by
    intro l
    induction l with
    | nil => simp
    | cons p l ih =>
      rw [List.map_cons, List.sum_cons, Prod.snd_add, Prod.fst_add, ih, List.length_cons, List.countP_cons]
      by_cases hp : p % 2 = 0 <;> simp [hp, symWeight] <;> ring
  have f3 : ∀ (l : List ℕ) (b : ℕ), ((l.map (symWeight orb)).sum).2.2 b = if (irrepOf orb l).testBit b then (1 : ZMod 2) else 0 := by
    intro l b
    rw [irrepOf_testBit]
    induction l with
    | nil => rfl
    | cons p l ih => rw [List.map_cons, List.sum_cons, Prod.snd_add, Prod.snd_add, Pi.add_apply, ih, List.map_cons, List.sum_cons]; rfl
  have hx : irrepOf orb c = irrepOf orb a := by
    apply Nat.eq_of_testBit_eq
    intro b
    apply zmod_bool
    have e := irrepOf_testBit orb (a ++ c) b
    rw [h.sym, List.map_append, List.sum_append, ← irrepOf_testBit, ← irrepOf_testBit] at e
    simp only [Nat.zero_testBit, Bool.false_eq_true, if_false] at e
    revert e
    cases (irrepOf orb c).testBit b <;> cases (irrepOf orb a).testBit b <;> decide
  refine Prod.ext ?_ (Prod.ext ?_ ?_)
  · rw [f1, f1, h.number]
  · rw [f2, f2, h.spin, h.number]
  · funext b; rw [f3, f3, hx]

/-- a symmetric excitation, and its exponential, stay within the symmetry sectors -/
theorem keeps_symExc {orb : List ℕ} {n : ℕ} (q : Bool) {c a : List ℕ} (hc : ∀ p ∈ c, p < n) (ha : ∀ p ∈ a, p < n) (h : SymExc orb c a) :
    Keeps (symOf orb n) (kappa q c a) := fun ψ I hI => by
  obtain ⟨J, h1, h2⟩ := keeps_kappa (symWeight orb) q hc ha (symExc_sum h) ψ I hI
  exact ⟨J, h1, symOf_eq h2⟩

end QF
