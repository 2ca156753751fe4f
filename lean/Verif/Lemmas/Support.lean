import Verif.Lemmas.Skew
import Verif.Lemmas.Fermion

namespace QF

/-! ### on which qubits the strings of an operator act -/

theorem nBelow_flip {I p q : ℕ} (h : p ≤ q) : nBelow (flipBit I q) p = nBelow I p := by
  unfold nBelow
  refine List.countP_congr fun x hx => ?_
  have := List.mem_range.1 hx
  rw [testBit_flipBit, if_neg (by omega)]

theorem flipBit_comm' (I p q : ℕ) : flipBit (flipBit I p) q = flipBit (flipBit I q) p := by
  simp only [flipBit, Nat.xor_assoc, Nat.xor_comm (2 ^ p)]

theorem flip_bit_ne {I p q : ℕ} (h : p ≠ q) : (flipBit I q).testBit p = I.testBit p := by rw [testBit_flipBit, if_neg h]

theorem ladder_opX (b : Bool) {p q : ℕ} (h : p < q) : Commute (opX q) (ladder b p) := by
  refine Op.ext' fun ψ I => ?_
  rw [Module.End.mul_apply, Module.End.mul_apply, opX_apply, ladder_apply, ladder_apply, opX_apply, flip_bit_ne h.ne,
    fsign, nBelow_flip h.le, flipBit_comm']
  rfl

theorem ladder_opZ (b : Bool) {p q : ℕ} (h : p < q) : Commute (opZ q) (ladder b p) := by
  refine Op.ext' fun ψ I => ?_
  rw [Module.End.mul_apply, Module.End.mul_apply, opZ_apply, ladder_apply, ladder_apply, opZ_apply, flip_bit_ne h.ne']
  split_ifs <;> ring

theorem qladder_opX (b : Bool) {p q : ℕ} (h : p < q) : Commute (opX q) (qladder b p) := by
  refine Op.ext' fun ψ I => ?_
  rw [Module.End.mul_apply, Module.End.mul_apply, opX_apply, qladder_apply, qladder_apply, opX_apply, flip_bit_ne h.ne, flipBit_comm']

theorem qladder_opZ (b : Bool) {p q : ℕ} (h : p < q) : Commute (opZ q) (qladder b p) := by
  refine Op.ext' fun ψ I => ?_
  rw [Module.End.mul_apply, Module.End.mul_apply, opZ_apply, qladder_apply, qladder_apply, opZ_apply, flip_bit_ne h.ne']
  split_ifs <;> ring

/-- `A` does nothing to the qubits from `n` on -/
def ActsBelow (n : ℕ) (A : Op) : Prop := ∀ q, n ≤ q → Commute (opX q) A ∧ Commute (opZ q) A

theorem ActsBelow.mul {n : ℕ} {A B : Op} (hA : ActsBelow n A) (hB : ActsBelow n B) : ActsBelow n (A * B) :=
  fun q hq => ⟨(hA q hq).1.mul_right (hB q hq).1, (hA q hq).2.mul_right (hB q hq).2⟩
theorem ActsBelow.add {n : ℕ} {A B : Op} (hA : ActsBelow n A) (hB : ActsBelow n B) : ActsBelow n (A + B) :=
  fun q hq => ⟨(hA q hq).1.add_right (hB q hq).1, (hA q hq).2.add_right (hB q hq).2⟩
theorem ActsBelow.sub {n : ℕ} {A B : Op} (hA : ActsBelow n A) (hB : ActsBelow n B) : ActsBelow n (A - B) :=
  fun q hq => ⟨(hA q hq).1.sub_right (hB q hq).1, (hA q hq).2.sub_right (hB q hq).2⟩
theorem ActsBelow.smul {n : ℕ} {A : Op} (hA : ActsBelow n A) (z : ℂ) : ActsBelow n (z • A) :=
  fun q hq => ⟨(hA q hq).1.smul_right z, (hA q hq).2.smul_right z⟩
theorem ActsBelow.one (n : ℕ) : ActsBelow n (1 : Op) := fun _ _ => ⟨Commute.one_right _, Commute.one_right _⟩
theorem ActsBelow.zero (n : ℕ) : ActsBelow n (0 : Op) := fun _ _ => ⟨Commute.zero_right _, Commute.zero_right _⟩

theorem ActsBelow.prod {n : ℕ} : ∀ {l : List Op}, (∀ A ∈ l, ActsBelow n A) → ActsBelow n l.prod
  | [], _ => by simpa using ActsBelow.one n
  | A :: l, h => by rw [List.prod_cons]; exact (h A (by simp)).mul (ActsBelow.prod fun B hB => h B (by simp [hB]))

theorem ActsBelow.sum {n : ℕ} : ∀ {l : List Op}, (∀ A ∈ l, ActsBelow n A) → ActsBelow n l.sum
  | [], _ => by simpa using ActsBelow.zero n
  | A :: l, h => by rw [List.sum_cons]; exact (h A (by simp)).add (ActsBelow.sum fun B hB => h B (by simp [hB]))

theorem acts_fermi {n : ℕ} {cre ann : List ℕ} (hc : ∀ p ∈ cre, p < n) (ha : ∀ p ∈ ann, p < n) : ActsBelow n (fermiString cre ann) := by
  refine ActsBelow.mul (ActsBelow.prod ?_) (ActsBelow.prod ?_) <;> intro A hA <;> obtain ⟨p, hp, rfl⟩ := List.mem_map.1 hA <;> intro q hq
  · exact ⟨ladder_opX _ (by have := hc p hp; omega), ladder_opZ _ (by have := hc p hp; omega)⟩
  · exact ⟨ladder_opX _ (by have := ha p hp; omega), ladder_opZ _ (by have := ha p hp; omega)⟩

theorem acts_qubit {n : ℕ} {cre ann : List ℕ} (hc : ∀ p ∈ cre, p < n) (ha : ∀ p ∈ ann, p < n) : ActsBelow n (qubitString cre ann) := by
  refine ActsBelow.mul (ActsBelow.prod ?_) (ActsBelow.prod ?_) <;> intro A hA <;> obtain ⟨p, hp, rfl⟩ := List.mem_map.1 hA <;> intro q hq
  · exact ⟨qladder_opX _ (by have := hc p hp; omega), qladder_opZ _ (by have := hc p hp; omega)⟩
  · exact ⟨qladder_opX _ (by have := ha p hp; omega), qladder_opZ _ (by have := ha p hp; omega)⟩

theorem acts_kappa {n : ℕ} (b : Bool) {cre ann : List ℕ} (hc : ∀ p ∈ cre, p < n) (ha : ∀ p ∈ ann, p < n) : ActsBelow n (kappa b cre ann) := by
  unfold kappa
  split_ifs
  · exact (acts_qubit hc ha).sub (acts_qubit (by simpa using ha) (by simpa using hc))
  · exact (acts_fermi hc ha).sub (acts_fermi (by simpa using ha) (by simpa using hc))

/-- the strings of an operator that does nothing from qubit `n` on have no gate there -/
theorem support_strings {n : ℕ} {F : QubitOperator} (hF : ∀ t ∈ F, t.2.Canonical) (hn : (F.map Prod.snd).Nodup) (h : ActsBelow n F.opLR) :
    ∀ t ∈ F, t.1 ≠ 0 → ∀ g ∈ t.2, g.target < n := by
  have self : recoef F Prod.fst = F := by simp [recoef]
  have key : ∀ (m : String), IsXYZ m → ∀ q, Commute (pauliL m q) F.opLR → ∀ t ∈ F, t.1 ≠ 0 → eps (letterAt t.2 q) m = 1 := by
    intro m hm q hc t ht h0
    have e : (recoef F fun t => t.1 * eps (letterAt t.2 q) m).opLR = (recoef F Prod.fst).opLR := by
      rw [self]
      have : F.opLR = pauliL m q * F.opLR * pauliL m q := by rw [hc.eq, mul_assoc, pauliL_sq (.inr hm), mul_one]
      rw [this]
      clear hc self h ht hn this
      induction F with
      | nil => simp [recoef, QubitOperator.opLR]
      | cons x F ih =>
        have e1 : QubitOperator.opLR (x :: F) = x.1 • x.2.opLR + QubitOperator.opLR F := by simp [QubitOperator.opLR]
        have e2 : (recoef (x :: F) fun t => t.1 * eps (letterAt t.2 q) m).opLR = (x.1 * eps (letterAt x.2 q) m) • x.2.opLR +
            (recoef F fun t => t.1 * eps (letterAt t.2 q) m).opLR := by simp [recoef, QubitOperator.opLR]
        rw [e1, e2, ih (fun t ht => hF t (by simp [ht])), mul_add, add_mul, mul_smul_comm, smul_mul_assoc, canon_conj (hF x (by simp)) hm, smul_smul]
    have := recoef_eq hF hn _ _ e t ht
    exact mul_left_cancel₀ h0 (this.trans (mul_one _).symm)
  intro t ht h0 g hg
  by_contra hlt
  have hq : n ≤ g.target := by omega
  have hX := key "X" (.inl rfl) g.target (by rw [pauliL_X]; exact (h _ hq).1) t ht h0
  have hZ := key "Z" (.inr (.inr rfl)) g.target (by rw [pauliL_Z]; exact (h _ hq).2) t ht h0
  have hl : letterAt t.2 g.target = g.label := by
    unfold letterAt
    have hs : (t.2.find? fun x => x.target = g.target).isSome := by
      rw [List.find?_isSome]; exact ⟨g, hg, by simp⟩
    obtain ⟨x, hx⟩ := Option.isSome_iff_exists.1 hs
    rw [hx]
    have hxm := List.mem_of_find?_eq_some hx
    have hxt : x.target = g.target := by simpa using List.find?_some hx
    show x.label = g.label
    have hinj : x = g := by
      by_contra hne
      have := (hF t ht).sorted
      rcases List.pairwise_iff_getElem.1 this with hp
      obtain ⟨i, hi, rfl⟩ := List.getElem_of_mem hxm
      obtain ⟨j, hj, rfl⟩ := List.getElem_of_mem hg
      rcases lt_trichotomy i j with hij | hij | hij
      · have := hp i j hi hj hij; omega
      · subst hij; exact hne rfl
      · have := hp j i hj hi hij; omega
    rw [hinj]
  rw [hl] at hX hZ
  have hg' := (hF t ht).gates g hg
  rcases hg'.1 with h | h | h <;> rw [h] at hX hZ 
  · rw [eps, if_neg (by decide)] at hZ; norm_num at hZ
  · rw [eps, if_neg (by decide)] at hX; norm_num at hX
  · rw [eps, if_neg (by decide)] at hX; norm_num at hX

end QF
