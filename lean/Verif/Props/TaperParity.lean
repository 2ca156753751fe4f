import Verif.Props.TaperAbelian
import Verif.Props.QubitOperator

/-! The parity check matrix and the translation between vectors and circuits (C56). -/
namespace QF
open Finset

theorem letterAt_append {c d : Circuit} {q : ℕ} (h : ∀ g ∈ d, g.target ≠ q) : letterAt (c ++ d) q = letterAt c q := by
  have : d.find? (fun g => g.target = q) = none := by
    rw [List.find?_eq_none]; intro g hg; simpa using h g hg
  simp [letterAt, List.find?_append, this]

theorem letterAt_append_right {c d : Circuit} {q : ℕ} (h : ∀ g ∈ c, g.target ≠ q) : letterAt (c ++ d) q = letterAt d q := by
  have : c.find? (fun g => g.target = q) = none := by
    rw [List.find?_eq_none]; intro g hg; simpa using h g hg
  simp [letterAt, List.find?_append, this]

theorem foldlM_congr_mem {α β : Type} {f g : β → α → Except Exc β} : ∀ {l : List α} {b : β}, (∀ b a, a ∈ l → f b a = g b a) → l.foldlM f b = l.foldlM g b
  | [], _, _ => rfl
  | a :: l, b, h => by
    rw [List.foldlM_cons, List.foldlM_cons, h b a (by simp)]
    congr 1
    funext b'
    exact foldlM_congr_mem fun b a ha => h b a (by simp [ha])

/-- the loop that builds a Pauli string from its letters -/
noncomputable def buildStr (f : ℕ → String) (c : Circuit) (q : ℕ) : Except Exc Circuit :=
  if f q = "I" then pure c else do
    let g ← pyGate1 (f q) q 0
    pure (c.addGate g)

theorem buildStr_ok (f : ℕ → String) (hf : ∀ q, IsIXYZ (f q)) (n : ℕ) : ∃ c : Circuit, (List.range n).foldlM (buildStr f) [] = .ok c ∧ c.Canonical ∧
    (∀ g ∈ c, g.target < n) ∧ (∀ q < n, letterAt c q = f q) ∧ c.opLR = pauliStr n f := by
  induction n with
  | zero => exact ⟨[], rfl, ⟨fun g hg => by simp at hg, List.Pairwise.nil⟩, fun g hg => by simp at hg, fun q hq => by omega, by simp [pauliStr]⟩
  | succ n ih =>
    obtain ⟨c, e, can, tg, lt, op⟩ := ih
    rw [List.range_succ, List.foldlM_append, e, except_ok_bind]
    simp only [List.foldlM_cons, List.foldlM_nil]
    unfold buildStr
    by_cases hI : f n = "I"
    · rw [if_pos hI]
      refine ⟨c, rfl, can, fun g hg => by have := tg g hg; omega, ?_, ?_⟩
      · intro q hq
        rcases Nat.lt_succ_iff_lt_or_eq.1 hq with hq | rfl
        · exact lt q hq
        · rw [hI]; exact letterAt_of_not_mem (fun g hg => by have := tg g hg; omega)
      · rw [pauliStr_succ, hI, pauliL_I, mul_one, op]
    · rw [if_neg hI]
      have hx : IsXYZ (f n) := by rcases hf n with h | h; exact absurd h hI; exact h
      obtain ⟨g, hg, pg, ht, hl⟩ := make_pauli hx n
      have e2 : pyGate1 (f n) n 0 = .ok g := by
        unfold pyGate1
        rw [if_neg (by simp), if_pos (by rcases hx with h | h | h <;> rw [h] <;> decide)]
        simpa using hg
      rw [e2]
      simp only [except_ok_bind, pure, Except.pure]
      have hopg : g.op = pauliL (f n) n := by rw [pg.op, hl, ht]
      refine ⟨c.addGate g, rfl, ?_, ?_, ?_, ?_⟩
      · rw [canonical_iff] at can ⊢
        unfold Circuit.addGate
        refine ⟨?_, ?_⟩
        · intro x hx; rw [List.mem_append, List.mem_singleton] at hx
          rcases hx with hx | rfl
          · exact can.1 x hx
          · exact pg
        · rw [List.pairwise_append]
          refine ⟨can.2, by simp, fun a ha b hb => ?_⟩
          rw [List.mem_singleton] at hb; subst hb; rw [ht]; exact tg a ha
      · intro x hx
        unfold Circuit.addGate at hx
        rw [List.mem_append, List.mem_singleton] at hx
        rcases hx with hx | rfl
        · have := tg x hx; omega
        · omega
      · intro q hq
        unfold Circuit.addGate
        rcases Nat.lt_succ_iff_lt_or_eq.1 hq with hq | rfl
        · rw [letterAt_append (by intro x hx; rw [List.mem_singleton] at hx; subst hx; omega)]; exact lt q hq
        · rw [letterAt_append_right (fun x hx => by have := tg x hx; omega), letterAt_cons_eq ht, hl]
      · unfold Circuit.addGate
        rw [Circuit.opLR_append, pauliStr_succ, op]
        simp [hopg]

/-- a canonical string is determined by its letters -/
theorem canon_pauliStr {c : Circuit} (hc : c.Canonical) {n : ℕ} (hn : ∀ g ∈ c, g.target < n) : c.opLR = pauliStr n (letterAt c) := by
  obtain ⟨d, _, can, tg, lt, op⟩ := buildStr_ok (letterAt c) (letterAt_IXYZ hc) n
  rw [← op]
  congr 1
  apply canon_eq_of_letters hc can
  intro q
  by_cases hq : q < n
  · rw [lt q hq]
  · rw [letterAt_of_not_mem (fun g hg => by have := hn g hg; omega), letterAt_of_not_mem (fun g hg => by have := tg g hg; omega)]

namespace Taper

/-- the circuit of a vector -/
theorem generatorCircuit_ok (n : ℕ) (v : ℕ → ZMod 2) : ∃ c : Circuit, generatorCircuit n v = .ok c ∧ c.Canonical ∧ (∀ g ∈ c, g.target < n) ∧
    (∀ q < n, letterAt c q = bitLetter (v (n - 1 - q)) (v (2 * n - 1 - q))) ∧ c.opLR = pauliVec n v := by
  obtain ⟨c, e, can, tg, hlt, op⟩ := buildStr_ok (fun q => bitLetter (v (n - 1 - q)) (v (2 * n - 1 - q))) (fun q => bitLetter_IXYZ _ _) n
  refine ⟨c, ?_, can, tg, hlt, op⟩
  rw [← e]
  unfold generatorCircuit
  have hrev : (List.range n).reverse = (List.range n).map (fun q => n - 1 - q) := by
    apply List.ext_getElem
    · simp
    · intro i h1 h2; simp
  rw [hrev, List.foldlM_map]
  apply foldlM_congr_mem
  intro c q hq
  rw [List.mem_range] at hq
  unfold buildStr
  rw [show n - 1 - q + n = 2 * n - 1 - q by omega, show n - (n - 1 - q) - 1 = q by omega]
  have hb : ∀ x : ZMod 2, x = 0 ∨ x = 1 := by decide
  beta_reduce
  generalize v (n - 1 - q) = x
  generalize v (2 * n - 1 - q) = z
  rcases hb x with rfl | rfl <;> rcases hb z with rfl | rfl <;> simp [bitLetter]

/-! ### the parity check matrix -/

/-- Z-part and X-part of a letter, as the rows of the parity check matrix store them -/
def zbit (l : String) : ZMod 2 := if l = "Y" ∨ l = "Z" then 1 else 0
def xbit (l : String) : ZMod 2 := if l = "X" ∨ l = "Y" then 1 else 0

theorem pg_aux (Z X : Prop) [Decidable Z] [Decidable X] (M : ℕ → ℕ → ZMod 2) (a j i u w : ℕ) :
    (if X then setOne (if Z then setOne M i u else M) i w else if Z then setOne M i u else M) a j =
    if a = i ∧ (((if Z then 1 else 0 : ZMod 2) = 1 ∧ j = u) ∨ ((if X then 1 else 0 : ZMod 2) = 1 ∧ j = w)) then 1 else M a j := by
  by_cases hz : Z <;> by_cases hx : X <;> by_cases ha : a = i <;> by_cases h1 : j = u <;> by_cases h2 : j = w <;>
    simp only [hz, hx, ha, h1, h2, setOne, if_true, if_false, and_true, true_and, and_false, false_and, or_false, or_true, false_or, true_or, zero_ne_one] <;>
    simp_all

theorem parityRow (n i : ℕ) : ∀ (c : Circuit) (M : ℕ → ℕ → ZMod 2), (∀ g ∈ c, g.target < n) → c.Pairwise (fun a b => a.target < b.target) → (∀ j, M i j = 0) →
    (∀ a j, a ≠ i → (c.foldl (parityGate n i) M) a j = M a j) ∧
    ∀ q < n, (c.foldl (parityGate n i) M) i (n - 1 - q) = zbit (letterAt c q) ∧ (c.foldl (parityGate n i) M) i (2 * n - 1 - q) = xbit (letterAt c q) := by
  -- entries of row `i`: 1 once some gate sets them
  have gen : ∀ (c : Circuit) (M : ℕ → ℕ → ZMod 2), (∀ g ∈ c, g.target < n) → c.Pairwise (fun a b => a.target < b.target) →
      (∀ a j, a ≠ i → (c.foldl (parityGate n i) M) a j = M a j) ∧
      ∀ q < n, (c.foldl (parityGate n i) M) i (n - 1 - q) = (if zbit (letterAt c q) = 1 then 1 else M i (n - 1 - q)) ∧
        (c.foldl (parityGate n i) M) i (2 * n - 1 - q) = (if xbit (letterAt c q) = 1 then 1 else M i (2 * n - 1 - q)) := by
    intro c
    induction c with
    | nil => intro M _ _; exact ⟨fun a j _ => rfl, fun q _ => by simp [letterAt, zbit, xbit]⟩
    | cons g c ih =>
      intro M ht hp
      rw [List.pairwise_cons] at hp
      obtain ⟨i1, i2⟩ := ih (parityGate n i M g) (fun x hx => ht x (by simp [hx])) hp.2
      have hg := ht g (by simp)
      have pg : ∀ a j, parityGate n i M g a j = if a = i ∧ ((zbit g.label = 1 ∧ j = n - g.target - 1) ∨ (xbit g.label = 1 ∧ j = 2 * n - g.target - 1)) then 1 else M a j := by
        intro a j
        exact pg_aux _ _ M a j i _ _
      refine ⟨fun a j ha => ?_, fun q hq => ?_⟩
      · rw [List.foldl_cons, i1 a j ha, pg, if_neg (fun h => ha h.1)]
      · rw [List.foldl_cons, (i2 q hq).1, (i2 q hq).2, pg, pg]
        by_cases hqt : g.target = q
        · have hno : letterAt c q = "I" := letterAt_of_not_mem (fun x hx => by have := hp.1 x hx; omega)
          rw [hno, letterAt_cons_eq hqt]
          have z0 : zbit "I" = 0 := by decide
          have x0 : xbit "I" = 0 := by decide
          rw [z0, x0]
          have e1 : n - 1 - q = n - g.target - 1 := by omega
          have e2 : 2 * n - 1 - q = 2 * n - g.target - 1 := by omega
          have n1 : n - 1 - q ≠ 2 * n - g.target - 1 := by omega
          have n2 : 2 * n - 1 - q ≠ n - g.target - 1 := by omega
          rw [← e1, ← e2] at *
          simp [n1, n2]
        · rw [letterAt_cons_ne hqt]
          have n1 : n - 1 - q ≠ n - g.target - 1 := by omega
          have n2 : 2 * n - 1 - q ≠ 2 * n - g.target - 1 := by omega
          have n3 : n - 1 - q ≠ 2 * n - g.target - 1 := by omega
          have n4 : 2 * n - 1 - q ≠ n - g.target - 1 := by omega
          simp [n1, n2, n3, n4]
  intro c M ht hp h0
  obtain ⟨g1, g2⟩ := gen c M ht hp
  refine ⟨g1, fun q hq => ?_⟩
  rw [(g2 q hq).1, (g2 q hq).2, h0, h0]
  constructor
  · unfold zbit; split_ifs <;> simp_all
  · unfold xbit; split_ifs <;> simp_all

theorem parityCheck_entries (n : ℕ) (H : QubitOperator) (hH : ∀ t ∈ H, t.2.Canonical ∧ ∀ g ∈ t.2, g.target < n) :
    ∀ i (hi : i < H.length), ∀ q < n, (parityCheck n H).e i (n - 1 - q) = zbit (letterAt (H[i]).2 q) ∧
      (parityCheck n H).e i (2 * n - 1 - q) = xbit (letterAt (H[i]).2 q) := by
  have key : ∀ (H : QubitOperator), (∀ t ∈ H, t.2.Canonical ∧ ∀ g ∈ t.2, g.target < n) → ∀ (k : ℕ) (M : ℕ → ℕ → ZMod 2), (∀ a, k ≤ a → ∀ j, M a j = 0) →
      (∀ a < k, ∀ j, ((H.zipIdx k).foldl (fun M t => t.1.2.foldl (parityGate n t.2) M) M) a j = M a j) ∧
      ∀ i (hi : i < H.length), ∀ q < n, ((H.zipIdx k).foldl (fun M t => t.1.2.foldl (parityGate n t.2) M) M) (k + i) (n - 1 - q) = zbit (letterAt (H[i]).2 q) ∧
        ((H.zipIdx k).foldl (fun M t => t.1.2.foldl (parityGate n t.2) M) M) (k + i) (2 * n - 1 - q) = xbit (letterAt (H[i]).2 q) := by
    intro H
    induction H with
    | nil => intro _ k M _; exact ⟨fun a _ j => rfl, fun i hi => by simp at hi⟩
    | cons t H ih =>
      intro hH k M h0
      have ht := hH t (by simp)
      obtain ⟨r1, r2⟩ := parityRow n k t.2 M ht.2 (canonical_iff.1 ht.1).2 (h0 k (le_refl _))
      have := ih (fun x hx => hH x (by simp [hx])) (k + 1) (t.2.foldl (parityGate n k) M) (fun a ha j => by rw [r1 a j (by omega)]; exact h0 a (by omega) j)
      simp only [List.zipIdx_cons, List.foldl_cons]
      refine ⟨fun a ha j => ?_, fun i hi q hq => ?_⟩
      · rw [this.1 a (by omega), r1 a j (by omega)]
      · cases i with
        | zero =>
          have h2 := r2 q hq
          rw [← this.1 k (by omega), ← this.1 k (by omega)] at h2
          exact h2
        | succ i =>
          have h2 := this.2 i (by simpa using hi) q hq
          rw [show k + 1 + i = k + (i + 1) by omega] at h2
          simpa using h2
  intro i hi q hq
  have := (key H hH 0 (fun _ _ => 0) (fun _ _ _ => rfl)).2 i hi q hq
  rw [Nat.zero_add] at this
  exact this

theorem bits_ac {l : String} (hl : IsIXYZ l) (x z : ZMod 2) : zbit l * x + xbit l * z = ac l (bitLetter x z) := by
  have hb : ∀ x : ZMod 2, x = 0 ∨ x = 1 := by decide
  rcases hl with rfl | rfl | rfl | rfl <;> rcases hb x with rfl | rfl <;> rcases hb z with rfl | rfl <;> decide

/-- C56: a vector is annihilated by the parity check matrix exactly when its Pauli string commutes with every term of the Hamiltonian -/
theorem C56_kernel_iff (n : ℕ) (H : QubitOperator) (hH : ∀ t ∈ H, t.2.Canonical ∧ ∀ g ∈ t.2, g.target < n) (v : ℕ → ZMod 2) :
    InKernel (parityCheck n H) v ↔ ∀ t ∈ H, Commute t.2.opLR (pauliVec n v) := by
  have key : ∀ i (hi : i < H.length), (∑ j ∈ range (parityCheck n H).cols, (parityCheck n H).e i j * v j = 0 ↔ Commute (H[i]).2.opLR (pauliVec n v)) := by
    intro i hi
    have hc := hH H[i] (List.getElem_mem hi)
    have hsum : ∑ j ∈ range (parityCheck n H).cols, (parityCheck n H).e i j * v j =
        ∑ q ∈ range n, ac (letterAt (H[i]).2 q) (bitLetter (v (n - 1 - q)) (v (2 * n - 1 - q))) := by
      show ∑ j ∈ range (2 * n), _ = _
      rw [show 2 * n = n + n by ring, sum_range_add, ← Finset.sum_range_reflect, ← Finset.sum_range_reflect (fun x => (parityCheck n H).e i (n + x) * v (n + x)),
        ← sum_add_distrib]
      apply sum_congr rfl
      intro q hq
      rw [mem_range] at hq
      have h2 := parityCheck_entries n H hH i hi q hq
      rw [show n + (n - 1 - q) = 2 * n - 1 - q by omega, h2.1, h2.2, bits_ac (letterAt_IXYZ hc.1 q), show n + n - 1 - q = 2 * n - 1 - q by omega]
    rw [hsum, canon_pauliStr hc.1 hc.2]
    have := (commute_iff_bsgn (pauliStr_sq n (letterAt_IXYZ hc.1)) (pauliVec_sq n v)
      (pauliStr_swap n (letterAt_IXYZ hc.1) (fun q => bitLetter_IXYZ _ _))).1
    exact this.symm
  constructor
  · intro h t ht
    obtain ⟨i, hi, rfl⟩ := List.getElem_of_mem ht
    exact (key i hi).1 (h i hi)
  · intro h i hi
    exact (key i hi).2 (h _ (List.getElem_mem hi))

end Taper
end QF
