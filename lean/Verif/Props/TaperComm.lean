import Verif.Spec.Tapering
import Verif.Props.TaperKernel
import Verif.Lemmas.PauliIndep

/-! C55: the commutation matrix. -/
namespace QF
open Finset

/-- sign of a bit -/
def bsgn (b : ZMod 2) : ℂ := if b = 0 then 1 else -1

theorem bsgn_add (a b : ZMod 2) : bsgn (a + b) = bsgn a * bsgn b := by
  have h : ∀ a b : ZMod 2, (a = 0 ∧ b = 0) ∨ (a = 0 ∧ b = 1) ∨ (a = 1 ∧ b = 0) ∨ (a = 1 ∧ b = 1) := by decide
  have h2 : (1 : ZMod 2) + 1 = 0 := by decide
  rcases h a b with ⟨rfl, rfl⟩ | ⟨rfl, rfl⟩ | ⟨rfl, rfl⟩ | ⟨rfl, rfl⟩ <;> simp [bsgn, h2]

theorem bsgn_zero : bsgn 0 = 1 := by simp [bsgn]
theorem bsgn_one : bsgn 1 = -1 := by simp [bsgn]

/-- 1 iff the letters anticommute -/
def ac (l m : String) : ZMod 2 := if l = "I" ∨ m = "I" ∨ l = m then 0 else 1

theorem pauliL_ac {l m : String} (hl : IsIXYZ l) (hm : IsIXYZ m) (q : ℕ) : pauliL l q * pauliL m q = bsgn (ac l m) • (pauliL m q * pauliL l q) := by
  rcases hl with rfl | rfl | rfl | rfl <;> rcases hm with rfl | rfl | rfl | rfl <;>
    simp [ac, bsgn, opX_opY, opY_opX, opX_opZ, opZ_opX, opY_opZ, opZ_opY, smul_smul] <;> module

theorem ac_bits (x z x' z' : ZMod 2) : ac (bitLetter x z) (bitLetter x' z') = x * z' + z * x' := by
  revert x z x' z'; decide

theorem bitLetter_IXYZ (x z : ZMod 2) : IsIXYZ (bitLetter x z) := by
  unfold bitLetter IsIXYZ IsXYZ; split_ifs <;> simp

theorem pauliStr_succ (n : ℕ) (f : ℕ → String) : pauliStr (n + 1) f = pauliStr n f * pauliL (f n) n := by
  simp [pauliStr, List.range_succ]

theorem pauliStr_congr {n : ℕ} {f g : ℕ → String} (h : ∀ q < n, f q = g q) : pauliStr n f = pauliStr n g := by
  unfold pauliStr
  congr 1
  apply List.map_congr_left
  intro q hq
  rw [h q (List.mem_range.1 hq)]

theorem pauliStr_comm_above (n : ℕ) (f : ℕ → String) {t : ℕ} (ht : n ≤ t) (s : String) : Commute (pauliStr n f) (pauliL s t) := by
  induction n with
  | zero => simp [pauliStr]
  | succ n ih => rw [pauliStr_succ]; exact (ih (by omega)).mul_left (pauliL_comm (by omega))

theorem pauliStr_swap (n : ℕ) {f g : ℕ → String} (hf : ∀ q, IsIXYZ (f q)) (hg : ∀ q, IsIXYZ (g q)) :
    pauliStr n f * pauliStr n g = bsgn (∑ q ∈ range n, ac (f q) (g q)) • (pauliStr n g * pauliStr n f) := by
  induction n with
  | zero => simp [pauliStr, bsgn]
  | succ n ih =>
    rw [pauliStr_succ, pauliStr_succ, sum_range_succ, bsgn_add]
    have c1 := pauliStr_comm_above n g (le_refl n) (f n)
    have c2 := pauliStr_comm_above n f (le_refl n) (g n)
    calc pauliStr n f * pauliL (f n) n * (pauliStr n g * pauliL (g n) n)
        = pauliStr n f * (pauliL (f n) n * pauliStr n g) * pauliL (g n) n := by simp only [mul_assoc]
      _ = (pauliStr n f * pauliStr n g) * (pauliL (f n) n * pauliL (g n) n) := by rw [← c1.eq]; simp only [mul_assoc]
      _ = (bsgn (∑ q ∈ range n, ac (f q) (g q)) * bsgn (ac (f n) (g n))) • ((pauliStr n g * pauliStr n f) * (pauliL (g n) n * pauliL (f n) n)) := by
          rw [ih, pauliL_ac (hf n) (hg n), smul_mul_smul_comm]
      _ = _ := by
          congr 1
          calc _ = pauliStr n g * (pauliStr n f * pauliL (g n) n) * pauliL (f n) n := by simp only [mul_assoc]
            _ = _ := by rw [c2.eq]; simp only [mul_assoc]

theorem pauliStr_sq (n : ℕ) {f : ℕ → String} (hf : ∀ q, IsIXYZ (f q)) : pauliStr n f * pauliStr n f = 1 := by
  induction n with
  | zero => simp [pauliStr]
  | succ n ih =>
    rw [pauliStr_succ]
    have c1 := pauliStr_comm_above n f (le_refl n) (f n)
    calc _ = pauliStr n f * (pauliL (f n) n * pauliStr n f) * pauliL (f n) n := by simp only [mul_assoc]
      _ = (pauliStr n f * pauliStr n f) * (pauliL (f n) n * pauliL (f n) n) := by rw [← c1.eq]; simp only [mul_assoc]
      _ = 1 := by rw [ih, pauliL_sq (hf n), mul_one]

theorem op_one_ne_zero : (1 : Op) ≠ 0 := by
  intro h
  have h1 := congrFun (congrArg (fun A : Op => A (fun _ => (1 : ℂ))) h) 0
  simp at h1

/-- products of Pauli strings never vanish, so commuting and anticommuting exclude each other -/
theorem commute_iff_bsgn {A B : Op} {b : ZMod 2} (hA : A * A = 1) (hB : B * B = 1) (h : A * B = bsgn b • (B * A)) :
    (Commute A B ↔ b = 0) ∧ (AntiCommute A B ↔ b = 1) := by
  have hne : B * A ≠ 0 := by
    intro h0
    have : B * A * A * B = 1 := by rw [mul_assoc B, hA, mul_one, hB]
    rw [h0, zero_mul, zero_mul] at this; exact op_one_ne_zero this.symm
  have key : B * A ≠ -(B * A) := by
    intro h0
    have h1 : (2 : ℂ) • (B * A) = 0 := by
      rw [two_smul]; nth_rewrite 2 [h0]; exact add_neg_cancel (B * A)
    rcases smul_eq_zero.1 h1 with h2 | h2
    · norm_num at h2
    · exact hne h2
  have hb : b = 0 ∨ b = 1 := by clear h; revert b; decide
  rcases hb with rfl | rfl
  · rw [bsgn_zero, one_smul] at h
    refine ⟨⟨fun _ => rfl, fun _ => h⟩, ⟨fun hc => ?_, fun h0 => absurd h0 (by decide)⟩⟩
    unfold AntiCommute at hc
    rw [h] at hc
    exact absurd hc key
  · rw [bsgn_one, Op.neg_one_smul] at h
    refine ⟨⟨fun hc => ?_, fun h0 => absurd h0 (by decide)⟩, ⟨fun _ => rfl, fun _ => h⟩⟩
    have hc' : A * B = B * A := hc
    rw [hc'] at h
    exact absurd h key

namespace Taper

/-- the symplectic form of two vectors `(x | z)` of length `2 n` -/
def symp (n : ℕ) (v w : ℕ → ZMod 2) : ZMod 2 := ∑ k ∈ range n, (v k * w (n + k) + v (n + k) * w k)

theorem pauliVec_swap (n : ℕ) (v w : ℕ → ZMod 2) : pauliVec n v * pauliVec n w = bsgn (symp n v w) • (pauliVec n w * pauliVec n v) := by
  unfold pauliVec
  rw [pauliStr_swap n (fun q => bitLetter_IXYZ _ _) (fun q => bitLetter_IXYZ _ _)]
  congr 2
  unfold symp
  rw [← Finset.sum_range_reflect]
  apply Finset.sum_congr rfl
  intro q hq
  rw [mem_range] at hq
  rw [ac_bits, show 2 * n - 1 - (n - 1 - q) = n + q by omega, show n - 1 - (n - 1 - q) = q by omega]

theorem pauliVec_sq (n : ℕ) (v : ℕ → ZMod 2) : pauliVec n v * pauliVec n v = 1 := pauliStr_sq n fun _ => bitLetter_IXYZ _ _

theorem symp_commute (n : ℕ) (v w : ℕ → ZMod 2) : (Commute (pauliVec n v) (pauliVec n w) ↔ symp n v w = 0) ∧ (AntiCommute (pauliVec n v) (pauliVec n w) ↔ symp n v w = 1) :=
  commute_iff_bsgn (pauliVec_sq n v) (pauliVec_sq n w) (pauliVec_swap n v w)

theorem cast_mod256 (k : ℕ) : ((k % 256 : ℕ) : ZMod 2) = (k : ZMod 2) := by
  rw [ZMod.natCast_eq_natCast_iff']; omega

theorem cast_mod2 (k : ℕ) : ((k % 2 : ℕ) : ZMod 2) = (k : ZMod 2) := by
  rw [ZMod.natCast_eq_natCast_iff']; omega

theorem cast_val (x : ZMod 2) : ((x.val : ℕ) : ZMod 2) = x := by revert x; decide

/-- the entry of the commutation matrix is the symplectic form -/
theorem commutation_entry (B : BMat) (n : ℕ) (hn : B.cols = 2 * n) (i j : ℕ) : (commutation B).e i j = symp n (B.e i) (B.e j) := by
  have e : (commutation B).e i j = ∑ k ∈ range (2 * n), B.e i k * ∑ l ∈ range (2 * n), ((formEntry n k l : ℕ) : ZMod 2) * B.e j l := by
    show ((_ % 256 % 2 : ℕ) : ZMod 2) = _
    rw [cast_mod2, cast_mod256, Nat.cast_sum, hn, show 2 * n / 2 = n by omega]
    apply sum_congr rfl
    intro k _
    rw [Nat.cast_mul, cast_val, cast_mod256, Nat.cast_sum]
    congr 1
    apply sum_congr rfl
    intro l _
    rw [Nat.cast_mul, cast_val]
  rw [e, show 2 * n = n + n by ring, sum_range_add, symp, sum_add_distrib]
  congr 1
  · apply sum_congr rfl
    intro k hk
    rw [mem_range] at hk
    congr 1
    rw [Finset.sum_eq_single (n + k)]
    · simp [formEntry, add_comm]
    · intro l _ hl
      unfold formEntry
      rw [if_neg (by omega)]; simp
    · intro h; exact absurd (mem_range.2 (by omega)) h
  · apply sum_congr rfl
    intro k hk
    rw [mem_range] at hk
    congr 1
    rw [Finset.sum_eq_single k]
    · simp [formEntry, add_comm]
    · intro l hl' hl
      rw [mem_range] at hl'
      unfold formEntry
      rw [if_neg (by omega)]; simp
    · intro h; exact absurd (mem_range.2 (by omega)) h

/-- C55: for every binary matrix with `2 n` columns, of any size (the `uint8` sums may wrap around), the commutation matrix is square
with one row per vector, its entry `(i, j)` is 0 exactly when the Pauli strings of rows `i` and `j` commute, and 1 exactly when
they anticommute. -/
theorem C55_commutation (B : BMat) (n : ℕ) (hn : B.cols = 2 * n) :
    (commutation B).rows = B.rows ∧ (commutation B).cols = B.rows ∧ ∀ i j,
      ((commutation B).e i j = 0 ↔ Commute (pauliVec n (B.e i)) (pauliVec n (B.e j))) ∧
      ((commutation B).e i j = 1 ↔ AntiCommute (pauliVec n (B.e i)) (pauliVec n (B.e j))) := by
  refine ⟨rfl, rfl, fun i j => ?_⟩
  rw [commutation_entry B n hn]
  exact ⟨(symp_commute n _ _).1.symm, (symp_commute n _ _).2.symm⟩

/-- two qubits: `X₁ X₀ = (11|00)` and `Z₀ = (00|01)` anticommute, `X₁ X₀` and `Z₁ Z₀ = (00|11)` commute -/
theorem C55_example :
    let B : BMat := { rows := 3, cols := 4, e := fun i j => if i = 0 then (if j < 2 then 1 else 0) else if i = 1 then (if j = 3 then 1 else 0) else (if j < 2 then 0 else 1) }
    (commutation B).e 0 1 = 1 ∧ (commutation B).e 0 2 = 0 := by
  decide

end Taper
end QF
