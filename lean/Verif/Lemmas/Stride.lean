import Verif.Lemmas.Kernel

/-!
The index lists of the strided loops are exactly the basis states with given bits, each once.
-/
namespace QF

/-- indices with bit `p` equal to `x`, in increasing order -/
def stride1 (n p : ℕ) (x : Bool) : List ℕ :=
  (List.range (2 ^ (n - p - 1))).flatMap fun j =>
    (List.range (2 ^ p)).map fun i => j * 2 ^ (p + 1) + x.toNat * 2 ^ p + i

/-- indices with bits `lo < hi` equal to `xlo`, `xhi`, in increasing order -/
def stride2 (n lo hi : ℕ) (xlo xhi : Bool) : List ℕ :=
  (List.range (2 ^ (n - hi - 1))).flatMap fun j =>
    (List.range (2 ^ (hi - lo - 1))).flatMap fun k =>
      (List.range (2 ^ lo)).map fun i =>
        j * 2 ^ (hi + 1) + xhi.toNat * 2 ^ hi + k * 2 ^ (lo + 1) + xlo.toNat * 2 ^ lo + i

theorem bool_mul_le (x : Bool) (a : ℕ) : x.toNat * a = 0 ∨ x.toNat * a = a := by cases x <;> simp

theorem pow_split {a b : ℕ} (h : a < b) : 2 ^ (b - a - 1) * 2 ^ (a + 1) = 2 ^ b := by
  rw [← pow_add]; congr 1; omega

theorem mul_lt_bound {j M S : ℕ} (h : j < M) : j * S + S ≤ M * S := by
  have := Nat.mul_le_mul_right S (Nat.succ_le_of_lt h)
  rw [Nat.succ_mul] at this; exact this

theorem stride1_pairwise (n p : ℕ) (x : Bool) : (stride1 n p x).Pairwise (· < ·) := by
  apply pairwise_flatMap_range (2 ^ (p + 1)) 0
  · intro k _
    rw [List.pairwise_map]
    exact List.Pairwise.imp (by intros; omega) List.pairwise_lt_range
  · intro k _ y hy
    obtain ⟨i, hi, rfl⟩ := List.mem_map.1 hy
    have hi := List.mem_range.1 hi
    have h1 := bool_mul_le x (2 ^ p)
    have h2 : 2 ^ (p + 1) = 2 ^ p + 2 ^ p := by rw [pow_succ]; omega
    have h3 : (k + 1) * 2 ^ (p + 1) = k * 2 ^ (p + 1) + 2 ^ (p + 1) := by ring
    omega

theorem mem_stride1 {n p : ℕ} (hp : p < n) {x : Bool} {I : ℕ} :
    I ∈ stride1 n p x ↔ I < 2 ^ n ∧ I.testBit p = x := by
  have hP : 2 ^ (n - p - 1) * 2 ^ (p + 1) = 2 ^ n := pow_split hp
  have h2 : 2 ^ (p + 1) = 2 ^ p + 2 ^ p := by rw [pow_succ]; omega
  unfold stride1
  simp only [List.mem_flatMap, List.mem_map, List.mem_range]
  constructor
  · rintro ⟨j, hj, i, hi, rfl⟩
    refine ⟨?_, testBit_digit x hi⟩
    have h1 := bool_mul_le x (2 ^ p)
    have h3 := mul_lt_bound (S := 2 ^ (p + 1)) hj
    omega
  · rintro ⟨hI, rfl⟩
    obtain ⟨j, i, hi, e⟩ := exists_digit I p
    refine ⟨j, ?_, i, hi, e.symm⟩
    by_contra hj
    have := Nat.mul_le_mul_right (2 ^ (p + 1)) (Nat.le_of_not_lt hj)
    omega

theorem stride2_pairwise {n lo hi : ℕ} (hlo : lo < hi) (xlo xhi : Bool) :
    (stride2 n lo hi xlo xhi).Pairwise (· < ·) := by
  have hP : 2 ^ (hi - lo - 1) * 2 ^ (lo + 1) = 2 ^ hi := pow_split hlo
  have h2 : 2 ^ (lo + 1) = 2 ^ lo + 2 ^ lo := by rw [pow_succ]; omega
  have h2' : 2 ^ (hi + 1) = 2 ^ hi + 2 ^ hi := by rw [pow_succ]; omega
  have h1 := bool_mul_le xlo (2 ^ lo)
  have h1' := bool_mul_le xhi (2 ^ hi)
  apply pairwise_flatMap_range (2 ^ (hi + 1)) 0
  · intro j _
    apply pairwise_flatMap_range (2 ^ (lo + 1)) (j * 2 ^ (hi + 1) + xhi.toNat * 2 ^ hi)
    · intro k _
      rw [List.pairwise_map]
      exact List.Pairwise.imp (by intros; omega) List.pairwise_lt_range
    · intro k _ y hy
      obtain ⟨i, hi, rfl⟩ := List.mem_map.1 hy
      have hi := List.mem_range.1 hi
      have h3 : (k + 1) * 2 ^ (lo + 1) = k * 2 ^ (lo + 1) + 2 ^ (lo + 1) := by ring
      omega
  · intro j _ y hy
    simp only [List.mem_flatMap, List.mem_map, List.mem_range] at hy
    obtain ⟨k, hk, i, hii, rfl⟩ := hy
    have h3 := mul_lt_bound (S := 2 ^ (lo + 1)) hk
    have h4 : (j + 1) * 2 ^ (hi + 1) = j * 2 ^ (hi + 1) + 2 ^ (hi + 1) := by ring
    omega

theorem mem_stride2 {n lo hi : ℕ} (hlo : lo < hi) (hhi : hi < n) {xlo xhi : Bool} {I : ℕ} :
    I ∈ stride2 n lo hi xlo xhi ↔ I < 2 ^ n ∧ I.testBit lo = xlo ∧ I.testBit hi = xhi := by
  have hP : 2 ^ (hi - lo - 1) * 2 ^ (lo + 1) = 2 ^ hi := pow_split hlo
  have hP' : 2 ^ (n - hi - 1) * 2 ^ (hi + 1) = 2 ^ n := pow_split hhi
  have h2 : 2 ^ (lo + 1) = 2 ^ lo + 2 ^ lo := by rw [pow_succ]; omega
  have h2' : 2 ^ (hi + 1) = 2 ^ hi + 2 ^ hi := by rw [pow_succ]; omega
  have hdvd : ∀ z : ℕ, z * 2 ^ hi = z * 2 ^ (hi - lo - 1) * 2 ^ (lo + 1) := by
    intro z; rw [← hP]; ring
  unfold stride2
  simp only [List.mem_flatMap, List.mem_map, List.mem_range]
  constructor
  · rintro ⟨j, hj, k, hk, i, hii, rfl⟩
    have h1 := bool_mul_le xlo (2 ^ lo)
    have h1' := bool_mul_le xhi (2 ^ hi)
    have h3 := mul_lt_bound (S := 2 ^ (lo + 1)) hk
    have h3' := mul_lt_bound (S := 2 ^ (hi + 1)) hj
    refine ⟨by omega, ?_, ?_⟩
    · have e : j * 2 ^ (hi + 1) + xhi.toNat * 2 ^ hi + k * 2 ^ (lo + 1) + xlo.toNat * 2 ^ lo + i
          = ((2 * j + xhi.toNat) * 2 ^ (hi - lo - 1) + k) * 2 ^ (lo + 1) + xlo.toNat * 2 ^ lo + i := by
        have := hdvd (2 * j + xhi.toNat)
        rw [Nat.add_mul, ← this, pow_succ 2 hi]; ring
      rw [e]; exact testBit_digit xlo hii
    · rw [Nat.add_assoc, Nat.add_assoc]; exact testBit_digit xhi (by omega)
  · rintro ⟨hI, rfl, rfl⟩
    obtain ⟨j, r, hr, e⟩ := exists_digit I hi
    obtain ⟨k, i, hi', e'⟩ := exists_digit r lo
    have hb : r.testBit lo = I.testBit lo := by
      rw [e]
      have := Nat.testBit_two_pow_mul_add (2 * j + (I.testBit hi).toNat) hr lo
      have e2 : j * 2 ^ (hi + 1) + (I.testBit hi).toNat * 2 ^ hi + r
          = 2 ^ hi * (2 * j + (I.testBit hi).toNat) + r := by rw [pow_succ]; ring
      rw [e2, this, if_pos hlo]
    rw [hb] at e'
    refine ⟨j, ?_, k, ?_, i, hi', ?_⟩
    · by_contra hj
      have := Nat.mul_le_mul_right (2 ^ (hi + 1)) (Nat.le_of_not_lt hj)
      omega
    · by_contra hk
      have := Nat.mul_le_mul_right (2 ^ (lo + 1)) (Nat.le_of_not_lt hk)
      omega
    · omega

theorem nodup_of_lt {l : List ℕ} (h : l.Pairwise (· < ·)) : l.Nodup :=
  h.imp (fun h => Nat.ne_of_lt h)

theorem adv_idxs (b : Blk) (d w : ℕ) (h : b.e = b.s0 + w) :
    (b.adv d).idxs = (List.range w).map fun i => b.s0 + d + i := by
  simp only [Blk.idxs, Blk.adv, h]
  rw [show b.s0 + w + d - (b.s0 + d) = w by omega]

/-- the single loop over blocks visits `stride1` -/
theorem innerLoop_idxs {n p : ℕ} (hp : p < n) (x : Bool) (s1 : ℕ) :
    (innerLoop (2 * 2 ^ p) (2 ^ n) ⟨x.toNat * 2 ^ p, s1, x.toNat * 2 ^ p + 2 ^ p⟩).1.flatMap Blk.idxs
      = stride1 n p x := by
  have hP : 2 ^ (n - p - 1) * 2 ^ (p + 1) = 2 ^ n := pow_split hp
  have h2 : 2 ^ (p + 1) = 2 ^ p + 2 ^ p := by rw [pow_succ]; omega
  have h2' : 2 * 2 ^ p = 2 ^ (p + 1) := by rw [pow_succ]; omega
  have h1 := bool_mul_le x (2 ^ p)
  have hpos := Nat.two_pow_pos p
  rw [h2']
  rw [innerLoop_eq (by omega) (2 ^ (n - p - 1)) _ (fun k hk => by
      have := mul_lt_bound (S := 2 ^ (p + 1)) hk; simp only; omega) (by simp only; omega)]
  simp only [stride1, List.flatMap_map]
  apply List.flatMap_congr
  intro j _
  rw [adv_idxs _ _ (2 ^ p) rfl]
  apply List.map_congr_left
  intro i _
  simp only; omega

/-- the double loop over blocks visits `stride2` -/
theorem outerLoop_idxs {n lo hi : ℕ} (hlo : lo < hi) (hhi : hi < n) (xlo xhi : Bool) (s1 oe : ℕ)
    (bound : ℕ → ℕ) (hoe : oe = 2 ^ (hi + 1) ∨ oe = 2 ^ hi)
    (hbd : ∀ j, (xhi.toNat + 1) * 2 ^ hi + j * 2 ^ (hi + 1) = bound (oe + j * 2 ^ (hi + 1))) :
    (outerLoop (2 ^ (lo + 1)) (2 ^ hi) (2 ^ (hi + 1)) (2 ^ n) bound oe
      ⟨xhi.toNat * 2 ^ hi + xlo.toNat * 2 ^ lo, s1, xhi.toNat * 2 ^ hi + xlo.toNat * 2 ^ lo + 2 ^ lo⟩).flatMap
        Blk.idxs = stride2 n lo hi xlo xhi := by
  have hP : 2 ^ (hi - lo - 1) * 2 ^ (lo + 1) = 2 ^ hi := pow_split hlo
  have hP' : 2 ^ (n - hi - 1) * 2 ^ (hi + 1) = 2 ^ n := pow_split hhi
  have h2 : 2 ^ (lo + 1) = 2 ^ lo + 2 ^ lo := by rw [pow_succ]; omega
  have h2' : 2 ^ (hi + 1) = 2 ^ hi + 2 ^ hi := by rw [pow_succ]; omega
  have h1 := bool_mul_le xlo (2 ^ lo)
  have h1' := bool_mul_le xhi (2 ^ hi)
  have hpos := Nat.two_pow_pos lo
  have hpos' := Nat.two_pow_pos hi
  have hD : 2 ^ (hi - lo - 1) * 2 ^ (lo + 1) + 2 ^ hi = 2 ^ (hi + 1) := by omega
  have hbd' : ∀ j, bound (oe + j * 2 ^ (hi + 1)) = xhi.toNat * 2 ^ hi + 2 ^ hi + j * 2 ^ (hi + 1) := by
    intro j
    rw [← hbd j]; ring
  rw [outerLoop_eq (by omega) (by omega) (2 ^ (hi - lo - 1)) (2 ^ (n - hi - 1)) oe _
    (fun j hj => by
      have := mul_lt_bound (S := 2 ^ (hi + 1)) hj; omega)
    (by omega)
    (fun j hj k hk => by
      have := mul_lt_bound (S := 2 ^ (lo + 1)) hk
      rw [hbd', hD]; simp only; omega)
    (fun j hj => by
      rw [hbd', hD]; simp only; omega)]
  simp only [stride2, List.flatMap_assoc, List.flatMap_map]
  apply List.flatMap_congr
  intro j _
  apply List.flatMap_congr
  intro k _
  rw [adv_idxs _ _ (2 ^ lo) rfl, hD]
  apply List.map_congr_left
  intro i _
  simp only; omega

theorem innerLoop_pairs (off bound : ℕ) (b : Blk) (d : ℕ) (h : b.s1 = b.s0 + d) :
    (innerLoop off bound b).1.flatMap Blk.pairs
      = ((innerLoop off bound b).1.flatMap Blk.idxs).map fun I => (I, I + d) := by
  have : ∀ b' ∈ (innerLoop off bound b).1, b'.s1 = b'.s0 + d := by
    fun_induction innerLoop off bound b with
    | case1 b hc r ih =>
      intro b' hb'
      simp only [List.mem_cons] at hb'
      rcases hb' with rfl | hb'
      · exact h
      · exact ih (by simp only [Blk.adv]; omega) b' hb'
    | case2 => simp
  rw [List.map_flatMap]
  apply List.flatMap_congr
  intro b' hb'
  exact Blk.pairs_eq (this b' hb')

theorem innerLoop_snd (off bound : ℕ) (b : Blk) (d : ℕ) (h : b.s1 = b.s0 + d) :
    (innerLoop off bound b).2.s1 = (innerLoop off bound b).2.s0 + d := by
  fun_induction innerLoop off bound b with
  | case1 b hc r ih => exact ih (by simp only [Blk.adv]; omega)
  | case2 => exact h

theorem outerLoop_pairs (off obs ooff nb : ℕ) (bound : ℕ → ℕ) (oe : ℕ) (b : Blk) (d : ℕ)
    (h : b.s1 = b.s0 + d) :
    (outerLoop off obs ooff nb bound oe b).flatMap Blk.pairs
      = ((outerLoop off obs ooff nb bound oe b).flatMap Blk.idxs).map fun I => (I, I + d) := by
  fun_induction outerLoop off obs ooff nb bound oe b with
  | case1 oe b hc r ih =>
    rw [List.flatMap_append, List.flatMap_append, List.map_append, innerLoop_pairs _ _ _ _ h]
    rw [ih (by
      have := innerLoop_snd off (bound oe) b d h
      simp only [Blk.adv]
      show (innerLoop off (bound oe) b).2.s1 + obs = (innerLoop off (bound oe) b).2.s0 + obs + d
      omega)]
  | case2 => simp

/-- the triple `for` loop of Case II-A, control < target -/
theorem forStep_idxs {n lo hi : ℕ} (hlo : lo < hi) (hhi : hi < n) :
    ((forStep 0 (2 ^ n) (2 ^ (hi + 1))).flatMap fun os =>
      (forStep (os + 2 ^ lo) (os + 2 ^ hi) (2 ^ (lo + 1))).flatMap fun bs =>
        forStep bs (bs + 2 ^ lo) 1) = stride2 n lo hi true false := by
  have hP : 2 ^ (hi - lo - 1) * 2 ^ (lo + 1) = 2 ^ hi := pow_split hlo
  have hP' : 2 ^ (n - hi - 1) * 2 ^ (hi + 1) = 2 ^ n := pow_split hhi
  have h2 : 2 ^ (lo + 1) = 2 ^ lo + 2 ^ lo := by rw [pow_succ]; omega
  have h2' : 2 ^ (hi + 1) = 2 ^ hi + 2 ^ hi := by rw [pow_succ]; omega
  have hpos := Nat.two_pow_pos lo
  have hpos' := Nat.two_pow_pos hi
  rw [forStep_eq (by omega) (2 ^ (n - hi - 1)) 0 _ (fun k hk => by
    have := mul_lt_bound (S := 2 ^ (hi + 1)) hk; omega) (by omega)]
  simp only [stride2, List.flatMap_map]
  apply List.flatMap_congr
  intro j _
  rw [forStep_eq (by omega) (2 ^ (hi - lo - 1)) _ _ (fun k hk => by
    have := mul_lt_bound (S := 2 ^ (lo + 1)) hk; omega) (by omega)]
  simp only [List.flatMap_map]
  apply List.flatMap_congr
  intro k _
  rw [forStep_eq (by omega) (2 ^ lo) _ _ (fun k hk => by omega) (by omega)]
  apply List.map_congr_left
  intro i _
  simp only [Bool.toNat_true, Bool.toNat_false]; omega

end QF
