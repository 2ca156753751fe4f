import Verif.Lemmas.Pauli
import Mathlib.Algebra.BigOperators.Group.Finset.Basic
import Mathlib.Algebra.BigOperators.Ring.Finset
import Mathlib.Data.List.Sort
import Mathlib.Tactic.LinearCombination

/-! Linear independence of canonical Pauli strings. -/
namespace QF

theorem Op.neg_one_smul (A : Op) : (-1 : ℂ) • A = -A := _root_.neg_one_smul ℂ A
theorem Op.sub_smul (a b : ℂ) (A : Op) : (a - b) • A = a • A - b • A := _root_.sub_smul a b A

/-- sign of the commutation of letters `l` and `m` -/
def eps (l m : String) : ℂ := if l = "I" ∨ l = m then 1 else -1

theorem pauli_conj {l m : String} (hl : IsIXYZ l) (hm : IsXYZ m) (q : ℕ) :
    pauliL m q * pauliL l q * pauliL m q = eps l m • pauliL l q := by
  have a1 := opX_sq q; have a2 := opY_sq q; have a3 := opZ_sq q
  rcases hl with rfl | rfl | rfl | rfl <;> rcases hm with rfl | rfl | rfl <;>
    simp [eps, a1, a2, a3, opX_opY, opY_opX, opX_opZ, opZ_opX, opY_opZ, opZ_opY, smul_smul, Op.neg_one_smul]

/-- letter on qubit `q` of a string -/
def letterAt (s : Circuit) (q : ℕ) : String :=
  match s.find? (fun g => g.target = q) with
  | some g => g.label
  | none => "I"

theorem letterAt_cons_eq {g : Gate} {s : Circuit} {q : ℕ} (h : g.target = q) : letterAt (g :: s) q = g.label := by
  simp [letterAt, h]
theorem letterAt_cons_ne {g : Gate} {s : Circuit} {q : ℕ} (h : g.target ≠ q) : letterAt (g :: s) q = letterAt s q := by
  simp [letterAt, h]
theorem letterAt_of_not_mem {s : Circuit} {q : ℕ} (h : ∀ g ∈ s, g.target ≠ q) : letterAt s q = "I" := by
  have : s.find? (fun g => g.target = q) = none := by
    rw [List.find?_eq_none]; intro g hg; simpa using h g hg
  simp [letterAt, this]

theorem letterAt_IXYZ {s : Circuit} (hs : s.Canonical) (q : ℕ) : IsIXYZ (letterAt s q) := by
  unfold letterAt
  rcases h : s.find? (fun g => g.target = q) with _ | g
  · rw [h]; exact .inl rfl
  · rw [h]; exact .inr (((canonical_iff.1 hs).1 g (List.mem_of_find?_eq_some h)).letter)

theorem Circuit.Canonical.tail {g : Gate} {s : Circuit} (h : Circuit.Canonical (g :: s)) : Circuit.Canonical s :=
  ⟨fun x hx => h.gates x (by simp [hx]), (List.pairwise_cons.1 h.sorted).2⟩

theorem canon_conj {s : Circuit} (hs : s.Canonical) {m : String} (hm : IsXYZ m) (q : ℕ) :
    pauliL m q * s.opLR * pauliL m q = eps (letterAt s q) m • s.opLR := by
  induction s with
  | nil => simp [letterAt, eps, pauliL_sq (.inr hm)]
  | cons g s ih =>
    have hg := (canonical_iff.1 hs).1 g (by simp)
    have hsq := pauliL_sq (.inr hm) q
    have e : pauliL m q * Circuit.opLR (g :: s) * pauliL m q =
        (pauliL m q * g.op * pauliL m q) * (pauliL m q * Circuit.opLR s * pauliL m q) := by
      rw [Circuit.opLR_cons]
      calc _ = pauliL m q * g.op * (pauliL m q * pauliL m q) * Circuit.opLR s * pauliL m q := by rw [hsq]; simp [mul_assoc]
        _ = _ := by simp only [mul_assoc]
    rw [e, ih hs.tail, Circuit.opLR_cons]
    by_cases h : g.target = q
    · rw [letterAt_cons_eq h]
      have : letterAt s q = "I" := letterAt_of_not_mem (fun x hx => by
        have := (List.pairwise_cons.1 hs.sorted).1 x hx; omega)
      rw [this, hg.op, h, pauli_conj (.inr hg.letter) hm]
      simp only [eps, true_or, if_true, one_smul, smul_mul_assoc]
    · rw [letterAt_cons_ne h]
      have hc : Commute (pauliL m q) g.op := by rw [hg.op]; exact pauliL_comm (Ne.symm h)
      rw [hc.eq, mul_assoc g.op, hsq, mul_one, mul_smul_comm]

theorem canon_sq {s : Circuit} (hs : s.Canonical) : s.opLR * s.opLR = 1 := by
  have h := opLR_mul_reverse (canonical_iff.1 hs).1
  rwa [← Circuit.op_eq_reverse, hs.op_eq] at h

theorem opLR_ne_zero {s : Circuit} (hs : s.Canonical) : s.opLR ≠ 0 := by
  intro h
  have := canon_sq hs
  rw [h, zero_mul] at this
  have h1 := congrFun (congrArg (fun A : Op => A (fun _ => (1 : ℂ))) this) 0
  simp at h1

theorem eps_inj {l l' : String} (hl : IsIXYZ l) (hl' : IsIXYZ l') (hx : eps l "X" = eps l' "X") (hz : eps l "Z" = eps l' "Z") :
    l = l' := by
  have e : (-1 : ℂ) ≠ 1 := by norm_num
  rcases hl with rfl | rfl | rfl | rfl <;> rcases hl' with rfl | rfl | rfl | rfl <;>
    simp [eps, e, e.symm] at hx hz ⊢

theorem canon_eq_of_letters {s t : Circuit} (hs : s.Canonical) (ht : t.Canonical) (h : ∀ q, letterAt s q = letterAt t q) :
    s = t := by
  have mem : ∀ {s : Circuit}, s.Canonical → ∀ g, g ∈ s ↔ PauliGate g ∧ letterAt s g.target = g.label := by
    intro s hs g
    induction s with
    | nil =>
      simp only [List.not_mem_nil, false_iff, not_and]
      intro hg he
      have hl := hg.letter
      rw [← he] at hl
      rw [show letterAt [] g.target = "I" from rfl] at hl
      exact absurd hl (by unfold IsXYZ; decide)
    | cons x s ih =>
      have hx := (canonical_iff.1 hs).1 x (by simp)
      by_cases hq : x.target = g.target
      · rw [letterAt_cons_eq hq]
        constructor
        · intro hm
          rcases List.mem_cons.1 hm with rfl | hm
          · exact ⟨hx, rfl⟩
          · exfalso
            have := (List.pairwise_cons.1 hs.sorted).1 g hm; omega
        · rintro ⟨hg, he⟩
          have h1 := hx.make
          have h2 := hg.make
          rw [hq, he, h2] at h1
          cases h1
          simp
      · rw [letterAt_cons_ne hq, ← ih hs.tail, List.mem_cons]
        constructor
        · rintro (rfl | h)
          · exact absurd rfl hq
          · exact h
        · exact Or.inr
  have nd : ∀ {s : Circuit}, s.Canonical → s.Nodup := fun hs =>
    hs.sorted.imp (fun h => by rintro rfl; exact lt_irrefl _ h)
  have hp : s.Perm t := (List.perm_ext_iff_of_nodup (nd hs) (nd ht)).2 (fun g => by rw [mem hs, mem ht, h])
  exact hp.eq_of_pairwise (fun a b _ _ h1 h2 => absurd h1 (by omega)) hs.sorted ht.sorted

theorem canon_inj {s t : Circuit} (hs : s.Canonical) (ht : t.Canonical) {k : ℂ} (hk : k • s.opLR = t.opLR) : s = t := by
  apply canon_eq_of_letters hs ht
  intro q
  have key : ∀ m, IsXYZ m → eps (letterAt s q) m = eps (letterAt t q) m := by
    intro m hm
    have h1 := canon_conj hs hm q
    have h2 := canon_conj ht hm q
    rw [← hk, mul_smul_comm, smul_mul_assoc, h1, smul_comm, hk] at h2
    by_contra hne
    have h3 : (eps (letterAt s q) m - eps (letterAt t q) m) • t.opLR = 0 := by rw [Op.sub_smul, h2, sub_self]
    rcases smul_eq_zero.1 h3 with h | h
    · exact hne (sub_eq_zero.1 h)
    · exact opLR_ne_zero ht h
  exact eps_inj (letterAt_IXYZ hs q) (letterAt_IXYZ ht q) (key "X" (.inl rfl)) (key "Z" (.inr (.inr rfl)))

/-! ### trace on `n` qubits -/

/-- trace of the block of the first `2^n` basis states -/
noncomputable def trN (n : ℕ) (A : Op) : ℂ := ∑ I ∈ Finset.range (2 ^ n), A (Pi.single I 1) I

theorem trN_add (n : ℕ) (A B : Op) : trN n (A + B) = trN n A + trN n B := by
  simp [trN, Finset.sum_add_distrib]
theorem trN_smul (n : ℕ) (a : ℂ) (A : Op) : trN n (a • A) = a * trN n A := by
  simp [trN, Finset.mul_sum]
theorem trN_zero (n : ℕ) : trN n 0 = 0 := by simp [trN]
theorem trN_one (n : ℕ) : trN n 1 = 2 ^ n := by simp [trN]

theorem opX_single (q I : ℕ) : opX q (Pi.single I 1) = Pi.single (flipBit I q) 1 := by
  funext J
  rw [opX_apply]
  by_cases h : J = flipBit I q
  · subst h; simp [flipBit_flipBit]
  · rw [Pi.single_eq_of_ne h, Pi.single_eq_of_ne]
    intro h'; apply h; rw [← h', flipBit_flipBit]

theorem opZ_single (q I : ℕ) : opZ q (Pi.single I 1) = (if I.testBit q then (-1 : ℂ) else 1) • Pi.single I 1 := by
  funext J
  rw [opZ_apply]
  by_cases h : J = I
  · subst h; simp
  · simp [Pi.single_eq_of_ne h]

theorem trN_X {n q : ℕ} (hq : q < n) (A : Op) : trN n (opX q * A * opX q) = trN n A := by
  unfold trN
  apply Finset.sum_nbij' (fun I => flipBit I q) (fun I => flipBit I q)
  · intro I hI; rw [Finset.mem_range] at hI ⊢; exact (flipBit_lt hq).2 hI
  · intro I hI; rw [Finset.mem_range] at hI ⊢; exact (flipBit_lt hq).2 hI
  · intro I _; exact flipBit_flipBit I q
  · intro I _; exact flipBit_flipBit I q
  · intro I _
    rw [Module.End.mul_apply, Module.End.mul_apply, opX_single, opX_apply]

theorem trN_Z (n q : ℕ) (A : Op) : trN n (opZ q * A * opZ q) = trN n A := by
  unfold trN
  apply Finset.sum_congr rfl
  intro I _
  rw [Module.End.mul_apply, Module.End.mul_apply, opZ_single, map_smul, opZ_apply]
  simp only [Pi.smul_apply, smul_eq_mul]
  split_ifs <;> ring

theorem trN_canon {n : ℕ} {s : Circuit} (hs : s.Canonical) (hn : s ≠ []) (hf : ∀ g ∈ s, g.target < n) :
    trN n s.opLR = 0 := by
  rcases s with _ | ⟨g, s⟩
  · exact absurd rfl hn
  have hg := (canonical_iff.1 hs).1 g (by simp)
  have hq := hf g (by simp)
  have half : ∀ x : ℂ, x = -1 * x → x = 0 := by
    intro x h; linear_combination h / 2
  have hl : letterAt (g :: s) g.target = g.label := letterAt_cons_eq rfl
  rcases hg.letter with h | h | h
  · have h1 := canon_conj hs (m := "Z") (.inr (.inr rfl)) g.target
    rw [hl, h] at h1
    have h2 := trN_Z n g.target (Circuit.opLR (g :: s))
    rw [pauliL_Z] at h1
    rw [h1, trN_smul] at h2
    rw [show eps "X" "Z" = -1 by simp [eps]] at h2
    exact half _ h2.symm
  · have h1 := canon_conj hs (m := "Z") (.inr (.inr rfl)) g.target
    rw [hl, h] at h1
    have h2 := trN_Z n g.target (Circuit.opLR (g :: s))
    rw [pauliL_Z] at h1
    rw [h1, trN_smul, show eps "Y" "Z" = -1 by simp [eps]] at h2
    exact half _ h2.symm
  · have h1 := canon_conj hs (m := "X") (.inl rfl) g.target
    rw [hl, h] at h1
    have h2 := trN_X hq (Circuit.opLR (g :: s))
    rw [pauliL_X] at h1
    rw [h1, trN_smul, show eps "Z" "X" = -1 by simp [eps]] at h2
    exact half _ h2.symm

/-- canonical Pauli strings are orthogonal for the trace -/
theorem trN_mul {n : ℕ} {s t : Circuit} (hs : s.Canonical) (ht : t.Canonical) (hf : ∀ g ∈ s, g.target < n)
    (hf' : ∀ g ∈ t, g.target < n) (hne : s ≠ t) : trN n (s.opLR * t.opLR) = 0 := by
  have hp : ∀ g ∈ s ++ t, PauliGate g := by
    intro g hg
    rcases List.mem_append.1 hg with h | h
    · exact (canonical_iff.1 hs).1 g h
    · exact (canonical_iff.1 ht).1 g h
  obtain ⟨k, u, _, hu, hk, hm, he⟩ := canonicalize_ok hp
  rw [Circuit.opLR_append] at he
  rw [← he, trN_smul, trN_canon hu, mul_zero]
  · rintro rfl
    apply hne
    refine canon_inj hs ht (k := k⁻¹) ?_
    have : t.opLR = k • s.opLR := by
      calc t.opLR = s.opLR * (s.opLR * t.opLR) := by rw [← mul_assoc, canon_sq hs, one_mul]
        _ = _ := by rw [← he]; simp
    have h2 : s.opLR * t.opLR = k • (1 : Op) := by rw [← he]; simp
    have h3 : s.opLR = k • t.opLR := by
      calc s.opLR = (s.opLR * t.opLR) * t.opLR := by rw [mul_assoc, canon_sq ht, mul_one]
        _ = _ := by rw [h2]; simp
    rw [h3, smul_smul, inv_mul_cancel₀ hk.ne_zero, one_smul]
  · intro g hg
    obtain ⟨h, hh, e⟩ := hm g hg
    rw [← e]
    rcases List.mem_append.1 hh with h' | h'
    · exact hf h h'
    · exact hf' h h'

/-- a linear combination of distinct canonical Pauli strings determines its coefficients -/
theorem pauli_independent {ι : Type} [DecidableEq ι] (S : Finset ι) (s : ι → Circuit) (z : ι → ℂ)
    (hc : ∀ i ∈ S, (s i).Canonical) (hi : ∀ i ∈ S, ∀ j ∈ S, s i = s j → i = j)
    (h : ∑ i ∈ S, z i • (s i).opLR = 0) : ∀ i ∈ S, z i = 0 := by
  classical
  -- a bound on all qubits
  obtain ⟨n, hn⟩ : ∃ n, ∀ i ∈ S, ∀ g ∈ s i, g.target < n := by
    refine ⟨S.sup (fun i => (s i).numQubits), ?_⟩
    intro i hi' g hg
    have h1 : g.target < (s i).numQubits := by
      have : ∀ (c : Circuit) (m : ℕ), g ∈ c → g.target < c.foldl (fun m g => max m (max (g.target + 1) (g.control + 1))) m ∧ True := by
        intro c
        induction c with
        | nil => intro m h; simp at h
        | cons x c ih =>
          intro m hm
          refine ⟨?_, trivial⟩
          rw [List.foldl_cons]
          rcases List.mem_cons.1 hm with rfl | hm
          · have mono : ∀ (c : Circuit) (m : ℕ), m ≤ c.foldl (fun m g => max m (max (g.target + 1) (g.control + 1))) m := by
              intro c
              induction c with
              | nil => intro m; exact le_rfl
              | cons y c ih => intro m; rw [List.foldl_cons]; exact le_trans (le_max_left _ _) (ih _)
            refine lt_of_lt_of_le ?_ (mono c _)
            omega
          · exact (ih _ hm).1
      exact (this (s i) 0 hg).1
    exact lt_of_lt_of_le h1 (Finset.le_sup (f := fun i => (s i).numQubits) hi')
  intro i hi'
  have h1 : trN n ((s i).opLR * ∑ j ∈ S, z j • (s j).opLR) = 0 := by rw [h, mul_zero, trN_zero]
  have lin : ∀ (T : Finset ι), trN n ((s i).opLR * ∑ j ∈ T, z j • (s j).opLR) =
      ∑ j ∈ T, z j * trN n ((s i).opLR * (s j).opLR) := by
    intro T
    induction T using Finset.induction_on with
    | empty => simp [trN_zero]
    | insert a T ha ih => rw [Finset.sum_insert ha, Finset.sum_insert ha, mul_add, trN_add, ih, mul_smul_comm, trN_smul]
  rw [lin, Finset.sum_eq_single i] at h1
  · rw [canon_sq (hc i hi'), trN_one] at h1
    rcases mul_eq_zero.1 h1 with h | h
    · exact h
    · exact absurd h (pow_ne_zero _ two_ne_zero)
  · intro j hj hne
    rw [trN_mul (hc i hi') (hc j hj) (hn i hi') (hn j hj) (fun e => hne (hi i hi' j hj e).symm), mul_zero]
  · intro h; exact absurd hi' h

end QF
