import Verif.Model.StatePrep
import Verif.Lemmas.QFT
import Verif.Props.Lifecycle
import Verif.Props.Basis
import Mathlib.Data.Set.Finite.List

/-!
C43 (reference preparation), C44 (spin-equivalent determinants), C45 (irreps), C57 (tapered references).
-/
namespace QF

/-! ### specification -/

/-- an occupation list: zeros and ones -/
def Occ (ref : List ℕ) : Prop := ∀ x ∈ ref, x = 0 ∨ x = 1

/-- the basis state of an occupation list: `Σ ref[i] 2^i` -/
def refIndex : List ℕ → ℕ
  | [] => 0
  | x :: ref => x + 2 * refIndex ref

/-! ### C43 -/

theorem refIndex_lt {ref : List ℕ} (h : Occ ref) : refIndex ref < 2 ^ ref.length := by
  induction ref with
  | nil => simp [refIndex]
  | cons x ref ih =>
    have := ih fun y hy => h y (by simp [hy])
    have hx := h x (by simp)
    simp only [refIndex, List.length_cons, pow_succ]
    omega

theorem refIndex_testBit {ref : List ℕ} (h : Occ ref) (i : ℕ) : (refIndex ref).testBit i = decide (ref.getD i 0 = 1) := by
  induction ref generalizing i with
  | nil => simp [refIndex]
  | cons x ref ih =>
    have ih := ih fun y hy => h y (by simp [hy])
    have hx := h x (by simp)
    cases i with
    | zero => simp only [refIndex, Nat.testBit_zero, List.getD_cons_zero]; rcases hx with rfl | rfl <;> simp <;> omega
    | succ i =>
      rw [List.getD_cons_succ, ← ih, refIndex, Nat.testBit_succ]; congr 1; omega

theorem refIndex_append (a b : List ℕ) : refIndex (a ++ b) = refIndex a + 2 ^ a.length * refIndex b := by
  induction a with
  | nil => simp [refIndex]
  | cons x a ih => simp only [List.cons_append, refIndex, ih, List.length_cons, pow_succ]; ring

theorem refToBasisIdx_eq {ref : List ℕ} (h : Occ ref) (hne : ref ≠ []) : refToBasisIdx ref = .ok (refIndex ref) := by
  have key : ∀ (l : List ℕ) (v : ℕ), Occ l →
      (l.reverse.flatMap fun x => Nat.toDigits 10 x).foldlM (fun v c => if c = '0' then pure (2 * v) else if c = '1' then pure (2 * v + 1) else .error .valueError) v
        = (.ok (v * 2 ^ l.length + refIndex l) : Except Exc ℕ) := by
    intro l
    induction l with
    | nil => intro v _; simp [refIndex]; rfl
    | cons x l ih =>
      intro v hl
      rw [List.reverse_cons, List.flatMap_append, List.foldlM_append, ih v fun y hy => hl y (by simp [hy])]
      rcases hl x (by simp) with rfl | rfl
      · simp [refIndex, except_ok_bind, pow_succ, pure, Except.pure]; ring
      · simp [show Nat.toDigits 10 1 = ['1'] by decide, refIndex, except_ok_bind, pow_succ, pure, Except.pure]; ring
  have hd : ref.reverse.flatMap (fun x => Nat.toDigits 10 x) ≠ [] := by
    obtain ⟨x, l, rfl⟩ := List.exists_cons_of_ne_nil hne
    rw [List.reverse_cons, List.flatMap_append]
    rcases h x (by simp) with rfl | rfl <;> simp
  unfold refToBasisIdx pyIntBase2
  rw [if_neg hd, key ref 0 h]; simp

theorem refprep_eq (ref : List ℕ) : ∃ C, buildRefprep ref = .ok C ∧ C = (ref.zipIdx.filter fun p => p.1 ≠ 0).map fun p => gX p.2 := by
  have py : ∀ t, pyGate2 "X" t t = .ok (gX t) := py_X
  have key : ∀ (l : List (ℕ × ℕ)) (c : Circuit),
      l.foldlM (fun c p => if p.1 ≠ 0 then do return Circuit.addGate c (← pyGate2 "X" p.2 p.2) else pure c) c =
        (.ok (c ++ (l.filter fun p => p.1 ≠ 0).map fun p => gX p.2) : Except Exc Circuit) := by
    intro l
    induction l with
    | nil => intro c; simp [pure, Except.pure]
    | cons p l ih =>
      intro c
      rw [List.foldlM_cons]
      by_cases hp : p.1 = 0
      · rw [if_neg (by simp [hp])]
        have := ih c
        simp only [pure, Except.pure, except_ok_bind] at this ⊢
        rw [this, List.filter_cons_of_neg (by simp [hp])]
      · rw [if_pos hp, py]
        have := ih (c.addGate (gX p.2))
        simp only [pure, Except.pure, except_ok_bind] at this ⊢
        rw [this, List.filter_cons_of_pos (by simp [hp])]
        simp [Circuit.addGate]
  exact ⟨_, key _ [], by simp⟩

theorem refprep_op (l : List ℕ) (h : Occ l) (k J : ℕ) :
    Circuit.op (((l.zipIdx k).filter fun p => p.1 ≠ 0).map fun p => gX p.2) (Pi.single J 1) = Pi.single (J ^^^ (2 ^ k * refIndex l)) 1 := by
  induction l generalizing k J with
  | nil => simp [refIndex]
  | cons x l ih =>
    have ih := ih fun y hy => h y (by simp [hy])
    rw [List.zipIdx_cons]
    rcases h x (by simp) with rfl | rfl
    · rw [List.filter_cons_of_neg (by simp), ih, refIndex]
      congr 2; rw [pow_succ]; ring
    · rw [List.filter_cons_of_pos (by simp), List.map_cons, Circuit.op_cons, Module.End.mul_apply, op_gX, opX_single, ih]
      congr 1
      rw [flipBit, Nat.xor_assoc, refIndex]
      congr 1
      apply Nat.eq_of_testBit_eq; intro i
      rw [Nat.testBit_xor, Nat.testBit_two_pow_mul, Nat.testBit_two_pow_mul, Nat.testBit_two_pow]
      rcases lt_trichotomy i k with hi | hi | hi
      · simp [hi.ne', show ¬ k ≤ i by omega, show ¬ k + 1 ≤ i by omega]
      · subst hi; simp
      · obtain ⟨m, rfl⟩ := Nat.exists_eq_add_of_lt hi
        simp only [show k ≤ k + m + 1 by omega, show k + 1 ≤ k + m + 1 by omega, decide_true, Bool.true_and, show ¬ k = k + m + 1 by omega, decide_false,
          Bool.false_xor, show k + m + 1 - (k + 1) = m by omega, show k + m + 1 - k = m + 1 by omega, Nat.testBit_succ]
        congr 1; omega

/-- C43: on a fresh computer with enough qubits the preparation circuit of any non-empty occupation list runs and leaves
exactly the basis state with index `ref_to_basis_idx(ref)`, whose bit `i` is the occupation of orbital `i`. -/
theorem C43_prepares (ref : List ℕ) (h : Occ ref) (hne : ref ≠ []) (n : ℕ) (hn : ref.length ≤ n) : ∃ C idx q,
    buildRefprep ref = .ok C ∧ refToBasisIdx ref = .ok idx ∧ (Computer.init n).applyCircuit C = .ok q ∧ q.nqubit = n ∧
      q.psi = Pi.single idx 1 ∧ idx < 2 ^ ref.length ∧ ∀ i, idx.testBit i = decide (ref.getD i 0 = 1) := by
  obtain ⟨C, hC, e⟩ := refprep_eq ref
  have hmem : ∀ g ∈ C, ∃ t < ref.length, g = gX t := by
    intro g hg
    rw [e] at hg
    obtain ⟨p, hp, rfl⟩ := List.mem_map.1 hg
    have := List.mem_of_mem_filter hp
    obtain ⟨_, _, x⟩ := List.mem_zipIdx this
    exact ⟨p.2, by simpa using List.snd_lt_of_mem_zipIdx this, rfl⟩
  obtain ⟨q, q1, _, q2, q3⟩ := applyCircuit_exact C (C60_init n).1 (fun g hg => by
      obtain ⟨t, ht, rfl⟩ := hmem g hg
      exact ⟨lt_of_lt_of_le ht hn, lt_of_lt_of_le ht hn⟩) fun g hg => by
      obtain ⟨t, ht, rfl⟩ := hmem g hg
      exact (C08_hypotheses_constant_gates (make_X t 0) rfl).1
  refine ⟨C, refIndex ref, q, hC, refToBasisIdx_eq h hne, q1, q2, ?_, refIndex_lt h, refIndex_testBit h⟩
  rw [q3, (C60_init n).2, e, refprep_op ref h 0 0]; simp

theorem intToRef_eq (n k : ℕ) (hn : n < 2 ^ 64) (hk : k ≤ 64) :
    integerToRef n k = .ok ((List.range k).map fun i => if n.testBit i then 1 else 0) := by
  unfold integerToRef
  rw [if_pos hn]
  have gb : ∀ i < 64, (QubitBasis.ofNat n).getBit i = n.testBit i := by
    intro i hi
    rw [QubitBasis.C01_get_bit _ hi]
    rw [QubitBasis.index, QubitBasis.ofNat, BitVec.toNat_ofNat, Nat.mod_eq_of_lt hn]
  have key : ∀ (l : List ℕ) (acc : List ℕ), (∀ i ∈ l, i < 64) → l.foldlM (fun ref i =>
      if i < 64 then pure (if (QubitBasis.ofNat n).getBit i then ref ++ [1] else ref ++ [0]) else .error .undefinedBehaviour) acc =
      (.ok (acc ++ l.map fun i => if n.testBit i then 1 else 0) : Except Exc (List ℕ)) := by
    intro l
    induction l with
    | nil => intro acc _; simp [pure, Except.pure]
    | cons i l ih =>
      intro acc hl
      rw [List.foldlM_cons, if_pos (hl i (by simp)), gb i (hl i (by simp))]
      have := ih (if n.testBit i then acc ++ [1] else acc ++ [0]) fun j hj => hl j (by simp [hj])
      simp only [pure, Except.pure, except_ok_bind] at this ⊢
      rw [this]; split_ifs <;> simp_all
  exact key _ [] fun i hi => lt_of_lt_of_le (List.mem_range.1 hi) hk

/-- C43: `integer_to_ref` undoes `ref_to_basis_idx` (up to 64 orbitals, the width of `QubitBasis`). -/
theorem C43_ref_of_index (ref : List ℕ) (h : Occ ref) (hne : ref ≠ []) (h64 : ref.length ≤ 64) (idx : ℕ)
    (hi : refToBasisIdx ref = .ok idx) : integerToRef idx ref.length = .ok ref := by
  rw [refToBasisIdx_eq h hne] at hi
  injection hi with hi
  have hlt : idx < 2 ^ 64 := hi ▸ lt_of_lt_of_le (refIndex_lt h) (Nat.pow_le_pow_right (by norm_num) h64)
  rw [intToRef_eq idx _ hlt h64, ← hi]
  congr 1
  apply List.ext_getElem (by simp)
  intro i h1 h2
  simp only [List.getElem_map, List.getElem_range, refIndex_testBit h, List.getD_eq_getElem _ _ h2]
  rcases h _ (List.getElem_mem h2) with e | e <;> simp [e]

/-- C43: `ref_to_basis_idx` undoes `integer_to_ref`. -/
theorem C43_index_of_ref (n k : ℕ) (hk : 0 < k) (h64 : k ≤ 64) (hn : n < 2 ^ k) : ∃ ref, integerToRef n k = .ok ref ∧
    Occ ref ∧ ref.length = k ∧ refToBasisIdx ref = .ok n := by
  have hlt : n < 2 ^ 64 := lt_of_lt_of_le hn (Nat.pow_le_pow_right (by norm_num) h64)
  set ref := (List.range k).map fun i => if n.testBit i then 1 else 0 with hr
  have hO : Occ ref := by
    intro x hx
    obtain ⟨i, _, rfl⟩ := List.mem_map.1 hx
    split_ifs <;> simp
  have hl : ref.length = k := by simp [hr]
  refine ⟨ref, intToRef_eq n k hlt h64, hO, hl, ?_⟩
  rw [refToBasisIdx_eq hO (by intro e; rw [e] at hl; simp at hl; omega)]
  congr 1
  apply Nat.eq_of_testBit_eq; intro i
  rw [refIndex_testBit hO]
  by_cases hi : i < k
  · rw [List.getD_eq_getElem _ _ (by rw [hl]; exact hi)]
    simp only [hr, List.getElem_map, List.getElem_range]
    cases n.testBit i <;> simp
  · rw [List.getD_eq_default _ _ (by omega), Nat.testBit_lt_two_pow (lt_of_lt_of_le hn (Nat.pow_le_pow_right (by norm_num) (by omega)))]
    simp

/-- C43: the empty list has a (trivial) preparation circuit but no index: `int("", 2)` raises. -/
theorem C43_empty_raises : buildRefprep [] = .ok [] ∧ refToBasisIdx [] = .error .valueError := ⟨rfl, rfl⟩

theorem C43_example : Occ [1, 1, 0, 1] ∧ refToBasisIdx [1, 1, 0, 1] = .ok 11 ∧ integerToRef 11 4 = .ok [1, 1, 0, 1] := by
  have h : Occ [1, 1, 0, 1] := by intro x hx; simp at hx; omega
  have e := refToBasisIdx_eq h (by simp)
  exact ⟨h, e, C43_ref_of_index _ h (by simp) (by simp) 11 e⟩

/-! ### C44 -/

/-- `d` is obtained from `ref` by moving electrons between the two spins of spatial orbitals: same length, zeros and ones,
every spatial orbital (positions `2i`, `2i+1`) holds as many electrons as in `ref`, and a trailing unpaired position is unchanged -/
structure SameOrbitals (ref d : List ℕ) : Prop where
  len : d.length = ref.length
  occ : Occ d
  orb : ∀ i < ref.length / 2, d.getD (2 * i) 0 + d.getD (2 * i + 1) 0 = ref.getD (2 * i) 0 + ref.getD (2 * i + 1) 0
  last : ref.length % 2 = 1 → d.getD (ref.length - 1) 0 = ref.getD (ref.length - 1) 0

/-- spin projection: half the number of electrons in even (alpha) minus odd (beta) positions of whole orbitals -/
def Sz (ref : List ℕ) : ℚ :=
  ∑ i ∈ Finset.range (ref.length / 2), ((ref.getD (2 * i) 0 : ℚ) - ref.getD (2 * i + 1) 0) / 2

theorem spinSum_eq (ref : List ℕ) : spinSum ref = Sz ref := by
  unfold spinSum Sz
  have : ∀ n, (List.range n).foldl (fun s i => s + (ref.getD (2 * i) 0 : ℚ) * (1 / 2) - (ref.getD (2 * i + 1) 0 : ℚ) * (1 / 2)) 0 =
      ∑ i ∈ Finset.range n, ((ref.getD (2 * i) 0 : ℚ) - ref.getD (2 * i + 1) 0) / 2 := by
    intro n
    induction n with
    | zero => simp
    | succ n ih => rw [List.range_succ, List.foldl_append, ih, Finset.sum_range_succ]; simp only [List.foldl_cons, List.foldl_nil]; ring
  exact this _

theorem oneEOrbs_mem (ref : List ℕ) (i : ℕ) :
    i ∈ oneEOrbs ref ↔ i < ref.length / 2 ∧ ref.getD (2 * i) 0 + ref.getD (2 * i + 1) 0 = 1 := by
  have : ∀ (l acc : List ℕ), l.foldl (fun l i => if ref.getD (2 * i) 0 + ref.getD (2 * i + 1) 0 = 1 then l ++ [i] else l) acc =
      acc ++ l.filter fun i => ref.getD (2 * i) 0 + ref.getD (2 * i + 1) 0 = 1 := by
    intro l
    induction l with
    | nil => simp
    | cons i l ih =>
      intro acc
      rw [List.foldl_cons, ih]
      split_ifs with h
      · rw [List.filter_cons_of_pos (by simpa using h)]; simp
      · rw [List.filter_cons_of_neg (by simpa using h)]
  unfold oneEOrbs
  rw [this]; simp

theorem flipSpin_getD {ref : List ℕ} {o : ℕ} (ho : 2 * o + 1 < ref.length) (k : ℕ) :
    (flipSpin ref o).getD k 0 = if k = 2 * o then ref.getD (2 * o + 1) 0 else if k = 2 * o + 1 then ref.getD (2 * o) 0 else ref.getD k 0 := by
  unfold flipSpin
  by_cases h1 : k = 2 * o + 1
  · subst h1; simp [List.getD_eq_getElem?_getD, List.getElem?_set, ho]
  · by_cases h2 : k = 2 * o
    · subst h2; simp [List.getD_eq_getElem?_getD, List.getElem?_set, show 2 * o < ref.length by omega]
    · simp [List.getD_eq_getElem?_getD, List.getElem?_set, h1, h2, Ne.symm h1, Ne.symm h2]

theorem flipSpin_length (ref : List ℕ) (o : ℕ) : (flipSpin ref o).length = ref.length := by simp [flipSpin]

theorem occ_iff_getD (l : List ℕ) : Occ l ↔ ∀ k, l.getD k 0 = 0 ∨ l.getD k 0 = 1 := by
  constructor
  · intro h k
    by_cases hk : k < l.length
    · rw [List.getD_eq_getElem _ _ hk]; exact h _ (List.getElem_mem hk)
    · rw [List.getD_eq_default _ _ (by omega)]; simp
  · intro h x hx
    obtain ⟨k, hk, rfl⟩ := List.getElem_of_mem hx
    have := h k; rwa [List.getD_eq_getElem _ _ hk] at this

theorem SameOrbitals.flip {ref d : List ℕ} (h : SameOrbitals ref d) {o : ℕ} (ho : o < ref.length / 2) : SameOrbitals ref (flipSpin d o) := by
  have h2 : 2 * o + 1 < d.length := by rw [h.len]; omega
  refine ⟨by rw [flipSpin_length, h.len], ?_, ?_, ?_⟩
  · rw [occ_iff_getD]; intro k
    have := (occ_iff_getD d).1 h.occ
    rw [flipSpin_getD h2]; split_ifs <;> exact this _
  · intro i hi
    rw [flipSpin_getD h2, flipSpin_getD h2, ← h.orb i hi]
    by_cases e : i = o
    · subst e; simp; omega
    · rw [if_neg (by omega), if_neg (by omega), if_neg (by omega), if_neg (by omega)]
  · intro ho'
    rw [flipSpin_getD h2, if_neg (by omega), if_neg (by omega), h.last ho']

theorem sameOrbitals_finite (ref : List ℕ) : {d | SameOrbitals ref d}.Finite := by
  refine Set.Finite.of_finite_image (f := fun d => d.map fun x => decide (x = 1)) ?_ ?_
  · refine (List.finite_length_eq Bool ref.length).subset ?_
    rintro _ ⟨d, hd, rfl⟩
    simp [hd.len]
  · intro d hd e he hde
    simp only at hde
    apply List.ext_getElem (by rw [hd.len, he.len])
    intro i h1 h2
    have := List.getElem_of_eq hde (by simpa using h1)
    simp only [List.getElem_map] at this
    rcases hd.occ _ (List.getElem_mem h1) with a | a <;> rcases he.occ _ (List.getElem_mem h2) with b | b <;> simp_all

/-- `L'` extends `L` by new determinants of the same family and has all flips of `r` -/
theorem inner_loop {ref r : List ℕ} (orbs : List ℕ) (ho : ∀ o ∈ orbs, o < ref.length / 2) (hr : SameOrbitals ref r) (L : List (List ℕ))
    (hn : L.Nodup) (hL : ∀ d ∈ L, SameOrbitals ref d) :
    ∃ E, orbs.foldl (fun L o => if flipSpin r o ∈ L then L else L ++ [flipSpin r o]) L = L ++ E ∧ (L ++ E).Nodup ∧
      (∀ d ∈ L ++ E, SameOrbitals ref d) ∧ ∀ o ∈ orbs, flipSpin r o ∈ L ++ E := by
  induction orbs generalizing L with
  | nil => exact ⟨[], by simp, by simpa using hn, by simpa using hL, by simp⟩
  | cons o orbs ih =>
    rw [List.foldl_cons]
    have ho' : ∀ o ∈ orbs, o < ref.length / 2 := fun o h => ho o (by simp [h])
    split_ifs with hm
    · obtain ⟨E, e1, e2, e3, e4⟩ := ih ho' L hn hL
      refine ⟨E, e1, e2, e3, ?_⟩
      intro p hp
      rcases List.mem_cons.1 hp with rfl | hp
      · exact List.mem_append_left _ hm
      · exact e4 p hp
    · obtain ⟨E, e1, e2, e3, e4⟩ := ih ho' (L ++ [flipSpin r o]) (by
        rw [List.nodup_append]; refine ⟨hn, by simp, ?_⟩
        intro a ha b hb e; simp at hb; subst hb; subst e; exact hm ha) (by
        intro d hd
        rcases List.mem_append.1 hd with hd | hd
        · exact hL d hd
        · simp at hd; subst hd; exact hr.flip (ho o (by simp)))
      refine ⟨flipSpin r o :: E, by rw [e1]; simp, by simpa using e2, by simpa using e3, ?_⟩
      intro p hp
      rcases List.mem_cons.1 hp with rfl | hp
      · simp
      · simpa using e4 p hp

theorem loop_closed {ref : List ℕ} (orbs : List ℕ) (ho : ∀ o ∈ orbs, o < ref.length / 2) (N : ℕ)
    (hN : ∀ L : List (List ℕ), L.Nodup → (∀ d ∈ L, SameOrbitals ref d) → L.length ≤ N) (fuel i : ℕ) (hf : N + 1 ≤ fuel + i) (L : List (List ℕ)) (hi : i ≤ L.length)
    (hn : L.Nodup) (hL : ∀ d ∈ L, SameOrbitals ref d) (hc : ∀ k (hk : k < L.length), k < i → ∀ o ∈ orbs, flipSpin L[k] o ∈ L) :
    ∃ E, eqDetsLoop orbs fuel i L = .ok (L ++ E) ∧ (L ++ E).Nodup ∧ (∀ d ∈ L ++ E, SameOrbitals ref d) ∧
      ∀ d ∈ L ++ E, ∀ o ∈ orbs, flipSpin d o ∈ L ++ E := by
  induction fuel generalizing i L with
  | zero => have := hN L hn hL; omega
  | succ fuel ih =>
    unfold eqDetsLoop
    by_cases hlt : i < L.length
    · rw [List.getElem?_eq_getElem hlt]
      obtain ⟨E, e1, e2, e3, e4⟩ := inner_loop orbs ho (hL _ (List.getElem_mem hlt)) L hn hL
      simp only [e1]
      obtain ⟨E', f1, f2, f3, f4⟩ := ih (i + 1) (by omega) (L ++ E) (by simp; omega) e2 e3 (by
        intro k hk hki o ho'
        by_cases hk2 : k < i
        · have hk3 : k < L.length := by omega
          rw [List.getElem_append_left hk3]
          exact List.mem_append_left _ (hc k hk3 hk2 o ho')
        · have : k = i := by omega
          subst this
          rw [List.getElem_append_left hlt]
          exact e4 o ho')
      exact ⟨E ++ E', by rw [f1, List.append_assoc], by rw [← List.append_assoc]; exact f2, by rw [← List.append_assoc]; exact f3,
        by rw [← List.append_assoc]; exact f4⟩
    · rw [List.getElem?_eq_none (by omega)]
      refine ⟨[], by simp, by simpa using hn, by simpa using hL, ?_⟩
      intro d hd o ho'
      simp only [List.append_nil] at hd ⊢
      obtain ⟨k, hk, rfl⟩ := List.getElem_of_mem hd
      exact hc k hk (by omega) o ho'

/-- a set of determinants that contains `ref` and is closed under flips of its singly occupied orbitals contains the whole family -/
theorem closed_all {ref : List ℕ} (hO : Occ ref) (L : List (List ℕ)) (h0 : ref ∈ L) (hL : ∀ d ∈ L, SameOrbitals ref d)
    (hc : ∀ d ∈ L, ∀ o ∈ oneEOrbs ref, flipSpin d o ∈ L) {d : List ℕ} (hd : SameOrbitals ref d) : d ∈ L := by
  have key : ∀ k ≤ ref.length / 2, ∃ e ∈ L, (∀ j, j < 2 * k → e.getD j 0 = d.getD j 0) ∧ ∀ j, 2 * k ≤ j → e.getD j 0 = ref.getD j 0 := by
    intro k
    induction k with
    | zero => intro _; exact ⟨ref, h0, by simp, by simp⟩
    | succ k ih =>
      intro hk
      obtain ⟨e, he, e1, e2⟩ := ih (by omega)
      have a := hd.orb k (by omega)
      have o1 := (occ_iff_getD d).1 hd.occ (2 * k)
      have o2 := (occ_iff_getD d).1 hd.occ (2 * k + 1)
      have o3 := (occ_iff_getD ref).1 hO (2 * k)
      have o4 := (occ_iff_getD ref).1 hO (2 * k + 1)
      by_cases hs : d.getD (2 * k) 0 = ref.getD (2 * k) 0
      · refine ⟨e, he, ?_, fun j hj => e2 j (by omega)⟩
        intro j hj
        by_cases h1 : j < 2 * k
        · exact e1 j h1
        · rw [e2 j (by omega)]
          rcases (show j = 2 * k ∨ j = 2 * k + 1 by omega) with rfl | rfl
          · exact hs.symm
          · omega
      · have hl : 2 * k + 1 < e.length := by rw [(hL e he).len]; omega
        refine ⟨flipSpin e k, hc e he k ((oneEOrbs_mem ref k).2 ⟨by omega, by omega⟩), ?_, ?_⟩
        · intro j hj
          rw [flipSpin_getD hl]
          split_ifs with h1 h2
          · subst h1; rw [e2 _ (by omega)]; omega
          · subst h2; rw [e2 _ (by omega)]; omega
          · exact e1 j (by omega)
        · intro j hj
          rw [flipSpin_getD hl, if_neg (by omega), if_neg (by omega)]
          exact e2 j (by omega)
  obtain ⟨e, he, e1, e2⟩ := key _ (le_refl _)
  have : e = d := by
    apply List.ext_getElem (by rw [(hL e he).len, hd.len])
    intro j h1 h2
    rw [← List.getD_eq_getElem e 0 h1, ← List.getD_eq_getElem d 0 h2]
    by_cases hj : j < 2 * (ref.length / 2)
    · exact e1 j hj
    · have hjl : j < ref.length := by rw [← hd.len]; exact h2
      have : ref.length % 2 = 1 := by omega
      rw [e2 j (by omega), show j = ref.length - 1 by omega, hd.last this]
  exact this ▸ he

/-- C44: for every occupation list `build_eq_dets` returns (after finitely many iterations of its worklist loop, whose
number depends only on the list) a list without repetitions of exactly the determinants with the same electrons per
spatial orbital and the same `|Sz|`; the given determinant comes first. -/
theorem C44_eq_dets (ref : List ℕ) (hO : Occ ref) : ∃ N, ∀ fuel ≥ N, ∃ R, buildEqDets fuel ref = .ok R ∧ R.Nodup ∧ R.head? = some ref ∧
    ∀ d, d ∈ R ↔ SameOrbitals ref d ∧ |Sz d| = |Sz ref| := by
  have hfin := sameOrbitals_finite ref
  have hN : ∀ L : List (List ℕ), L.Nodup → (∀ d ∈ L, SameOrbitals ref d) → L.length ≤ hfin.toFinset.card := by
    intro L hn hL
    rw [← List.toFinset_card_of_nodup hn]
    apply Finset.card_le_card
    intro d hd
    simp only [List.mem_toFinset] at hd
    simpa using hL d hd
  have hself : SameOrbitals ref ref := ⟨rfl, hO, fun _ _ => rfl, fun _ => rfl⟩
  refine ⟨hfin.toFinset.card + 1, fun fuel hf => ?_⟩
  obtain ⟨E, e1, e2, e3, e4⟩ := loop_closed (oneEOrbs ref) (fun o ho => ((oneEOrbs_mem ref o).1 ho).1) _ hN fuel 0 (by omega) [ref] (by simp) (by simp)
    (by simpa using hself) (by simp)
  have hfold : ∀ (l acc : List (List ℕ)), l.foldl (fun l r => if correctSpin r |spinSum ref| then l ++ [r] else l) acc =
      acc ++ l.filter fun r => correctSpin r |spinSum ref| := by
    intro l
    induction l with
    | nil => simp
    | cons i l ih =>
      intro acc
      rw [List.foldl_cons, ih]
      split_ifs with h
      · rw [List.filter_cons_of_pos (by simpa using h)]; simp
      · rw [List.filter_cons_of_neg (by simpa using h)]
  refine ⟨([ref] ++ E).filter fun r => correctSpin r |spinSum ref|, ?_, e2.filter _, ?_, ?_⟩
  · unfold buildEqDets
    simp only [e1, except_ok_bind, hfold, List.nil_append, pure, Except.pure]
  · rw [List.singleton_append, List.filter_cons_of_pos (by simp [correctSpin])]; rfl
  · intro d
    rw [List.mem_filter]
    simp only [correctSpin, decide_eq_true_eq, spinSum_eq]
    constructor
    · rintro ⟨h1, h2⟩; exact ⟨e3 d h1, h2⟩
    · rintro ⟨h1, h2⟩; exact ⟨closed_all hO _ (by simp) e3 e4 h1, h2⟩

/-- C44, a concrete case -/
theorem C44_example : Occ [1, 0, 0, 1, 1, 1] ∧ buildEqDets 5 [1, 0, 0, 1, 1, 1] = .ok [[1, 0, 0, 1, 1, 1], [0, 1, 1, 0, 1, 1]] := by
  refine ⟨by intro x hx; simp at hx; omega, by decide +kernel⟩

/-- C44: `open_shell` says whether some spatial orbital holds exactly one electron, i.e. whether the reference is not the only
determinant with its spatial occupations. -/
theorem C44_open_shell (ref : List ℕ) (hO : Occ ref) : openShell ref = true ↔
    ∃ i < ref.length / 2, (ref.getD (2 * i) 0 = 1 ∧ ref.getD (2 * i + 1) 0 = 0) ∨ (ref.getD (2 * i) 0 = 0 ∧ ref.getD (2 * i + 1) 0 = 1) := by
  have h01 : ∀ j, ref.getD j 0 = 0 ∨ ref.getD j 0 = 1 := by
    intro j
    by_cases hj : j < ref.length
    · rw [List.getD_eq_getElem _ _ hj]
      have := hO _ (List.getElem_mem hj)
      omega
    · rw [List.getD_eq_default _ _ (by omega)]; exact .inl rfl
  unfold openShell
  simp only [List.any_eq_true, List.mem_range, beq_iff_eq]
  refine ⟨fun ⟨i, hi, e⟩ => ⟨i, hi, ?_⟩, fun ⟨i, hi, e⟩ => ⟨i, hi, ?_⟩⟩
  · rcases h01 (2 * i) with a | a <;> rcases h01 (2 * i + 1) with b | b <;> omega
  · omega

/-! ### C45 -/

theorem findIrrep_foldl (tab : List ℕ) (idx : List ℕ) (h : ∀ i ∈ idx, i / 2 < tab.length) (v : ℕ) :
    idx.foldlM (irrepStep tab) v = (.ok (v ^^^ (idx.map fun i => tab.getD (i / 2) 0).foldr (· ^^^ ·) 0) : Except Exc ℕ) := by
  induction idx generalizing v with
  | nil => simp [pure, Except.pure]
  | cons i idx ih =>
    have hi := h i (by simp)
    rw [List.foldlM_cons, irrepStep, List.getElem?_eq_getElem hi]
    simp only [except_ok_bind]
    rw [ih fun j hj => h j (by simp [hj])]
    simp [List.getElem?_eq_getElem hi, Nat.xor_assoc]

/-- C45: when every orbital index is in the irrep table, `find_irrep` returns the XOR of the irreps of the orbitals. -/
theorem C45_value (tab idx : List ℕ) (h : ∀ i ∈ idx, i / 2 < tab.length) :
    findIrrep tab idx = .ok ((idx.map fun i => tab.getD (i / 2) 0).foldr (· ^^^ ·) 0) := by
  unfold findIrrep; rw [findIrrep_foldl tab idx h]; simp

/-- C45: the order of the indices does not matter. -/
theorem C45_perm (tab idx idx' : List ℕ) (h : ∀ i ∈ idx, i / 2 < tab.length) (hp : idx.Perm idx') :
    findIrrep tab idx = findIrrep tab idx' := by
  rw [C45_value tab idx h, C45_value tab idx' fun i hi => h i (hp.mem_iff.2 hi)]
  congr 1
  have : LeftCommutative (fun a b : ℕ => a ^^^ b) := ⟨fun a b c => Nat.xor_left_comm a b c⟩
  exact (hp.map _).foldr_eq 0

/-- C45: of concatenated lists it is the XOR of the parts. -/
theorem C45_append (tab a b : List ℕ) (ra rb : ℕ) (ha : findIrrep tab a = .ok ra) (hb : findIrrep tab b = .ok rb) :
    findIrrep tab (a ++ b) = .ok (ra ^^^ rb) := by
  have key : ∀ (b : List ℕ) (u v r : ℕ), b.foldlM (irrepStep tab) v = .ok r → b.foldlM (irrepStep tab) (u ^^^ v) = (.ok (u ^^^ r) : Except Exc ℕ) := by
    intro b
    induction b with
    | nil => intro u v r h; simp only [List.foldlM_nil, pure, Except.pure, Except.ok.injEq] at h ⊢; rw [h]
    | cons i b ih =>
      intro u v r h
      rw [List.foldlM_cons, irrepStep] at h ⊢
      cases e : tab[i / 2]? with
      | none => rw [e] at h; cases h
      | some x =>
        rw [e] at h
        simp only [except_ok_bind] at h ⊢
        rw [Nat.xor_assoc]
        exact ih u _ r h
  unfold findIrrep at *
  rw [List.foldlM_append, ha]
  simp only [except_ok_bind]
  simpa using key b ra 0 rb hb

/-- C45: repeated orbitals cancel: two indices of the same spatial orbital anywhere in the list can be dropped. -/
theorem C45_cancel (tab a b c : List ℕ) (i j : ℕ) (hij : i / 2 = j / 2) (h : ∀ x ∈ a ++ i :: b ++ j :: c, x / 2 < tab.length) :
    findIrrep tab (a ++ i :: b ++ j :: c) = findIrrep tab (a ++ b ++ c) := by
  have hp : (a ++ i :: b ++ j :: c).Perm (i :: j :: (a ++ b ++ c)) := by
    have h1 : (a ++ i :: b ++ j :: c).Perm (i :: (a ++ b ++ j :: c)) := by
      rw [List.append_assoc, List.append_assoc]; exact List.perm_middle
    exact h1.trans (List.Perm.cons _ List.perm_middle)
  rw [C45_perm tab _ _ h hp, C45_value, C45_value]
  · simp only [List.map_cons, List.foldr_cons, hij]; rw [← Nat.xor_assoc, Nat.xor_self, Nat.zero_xor]
  · intro x hx; exact h x (by simp at hx ⊢; tauto)
  · intro x hx; exact h x (hp.mem_iff.2 hx)

/-- C45: an index outside the table reads outside the vector. -/
theorem C45_out_of_range (tab idx : List ℕ) (i : ℕ) (hi : i ∈ idx) (h : ¬ i / 2 < tab.length) :
    findIrrep tab idx = .error .undefinedBehaviour := by
  obtain ⟨a, b, rfl⟩ := List.append_of_mem hi
  unfold findIrrep
  rw [List.foldlM_append]
  have : ∀ (a : List ℕ) (v : ℕ), (∃ r, a.foldlM (irrepStep tab) v = .ok r) ∨ a.foldlM (irrepStep tab) v = (.error .undefinedBehaviour : Except Exc ℕ) := by
    intro a
    induction a with
    | nil => intro v; exact .inl ⟨v, rfl⟩
    | cons j a ih =>
      intro v
      rw [List.foldlM_cons, irrepStep]
      cases e : tab[j / 2]? with
      | none => exact .inr rfl
      | some x => exact ih _
  rcases this a 0 with ⟨r, e⟩ | e
  · rw [e]; simp only [except_ok_bind]
    rw [List.foldlM_cons, irrepStep, List.getElem?_eq_none (by omega)]; rfl
  · rw [e]; rfl

theorem C45_example : findIrrep [0, 3, 5, 6] [2, 4, 3, 7] = .ok (5 ^^^ 6) := by decide

/-! ### C57 -/

theorem keep_append (l1 l2 : List ℕ) (T : List ℕ) (k : ℕ) :
    ((l1 ++ l2).zipIdx k).filter (fun p => p.2 ∉ T) = (l1.zipIdx k).filter (fun p => p.2 ∉ T) ++ (l2.zipIdx (k + l1.length)).filter (fun p => p.2 ∉ T) := by
  rw [List.zipIdx_append, List.filter_append]

theorem keep_all (l : List ℕ) (T : List ℕ) (k : ℕ) (h : ∀ i ∈ T, i < k) :
    ((l.zipIdx k).filter (fun p => p.2 ∉ T)).map Prod.fst = l := by
  rw [List.filter_eq_self.2, List.zipIdx_map_fst]
  intro p hp
  have := List.le_snd_of_mem_zipIdx hp
  simp only [decide_eq_true_eq]
  intro hm; have := h _ hm; omega

/-- C57: for strictly descending positions inside the list, `taper_reference` returns the entries at all other positions, in order. -/
theorem C57_taper (tapered ref : List ℕ) (hd : tapered.Pairwise (· > ·)) (hr : ∀ i ∈ tapered, i < ref.length) :
    taperReference tapered ref = .ok ((ref.zipIdx.filter fun p => p.2 ∉ tapered).map Prod.fst) := by
  unfold taperReference
  induction tapered generalizing ref with
  | nil => simp [pure, Except.pure, List.zipIdx_map_fst]
  | cons i T ih =>
    have hi := hr i (by simp)
    obtain ⟨hT, hd'⟩ := List.pairwise_cons.1 hd
    rw [List.foldlM_cons, pyDel, if_pos hi]
    simp only [except_ok_bind]
    obtain ⟨l1, x, l2, rfl, rfl⟩ : ∃ l1 x l2, ref = l1 ++ x :: l2 ∧ l1.length = i :=
      ⟨ref.take i, ref[i], ref.drop (i + 1), by simp, by simp; omega⟩
    have e : (l1 ++ x :: l2).eraseIdx l1.length = l1 ++ l2 := by
      rw [List.eraseIdx_append_of_length_le (le_refl _)]; simp
    rw [e, ih _ hd' fun j hj => by have := hT j hj; simp; omega]
    congr 1
    rw [keep_append, keep_append, List.map_append, List.map_append, List.zipIdx_cons, List.filter_cons_of_neg (by simp)]
    rw [keep_all l2 T _ (by intro j hj; have := hT j hj; omega), keep_all l2 (l1.length :: T) _ (by
      intro j hj
      rcases List.mem_cons.1 hj with rfl | hj
      · omega
      · have := hT j hj; omega)]
    congr 2
    apply List.filter_congr
    intro p hp
    have := List.snd_lt_of_mem_zipIdx hp
    have : p.2 ≠ l1.length := by omega
    simp [this]

/-- C57: the number of entries drops by the number of positions. -/
theorem C57_length (tapered ref r : List ℕ) (h : taperReference tapered ref = .ok r) : r.length + tapered.length = ref.length := by
  unfold taperReference at h
  induction tapered generalizing ref with
  | nil => simp only [List.foldlM_nil, pure, Except.pure, Except.ok.injEq] at h; simp [h]
  | cons i T ih =>
    rw [List.foldlM_cons, pyDel] at h
    split_ifs at h with hi
    · simp only [except_ok_bind] at h
      have := ih _ h
      rw [List.length_eraseIdx_of_lt hi] at this
      simp only [List.length_cons]; omega
    · cases h

/-- C57: the order matters: positions given in ascending order remove the wrong entries (the documented warning). -/
theorem C57_descending_needed : taperReference [1, 0] [1, 0, 1] = .ok [1] ∧
    taperReference [0, 1] [1, 0, 1] = .ok [0] := by decide

theorem C57_example : taperReference [4, 2, 1] [1, 0, 1, 0, 1, 1] = .ok [1, 0, 1] := by decide

end QF
