import Verif.Props.TaperApply

/-! C67: `taper_operator`. -/
namespace QF

theorem testBit_dropBit (I q j : ℕ) : (dropBit I q).testBit j = if j < q then I.testBit j else I.testBit (j + 1) := by
  unfold dropBit
  rw [add_comm, Nat.testBit_two_pow_mul_add _ (Nat.mod_lt _ (by positivity))]
  split_ifs with h
  · rw [Nat.testBit_mod_two_pow]; simp [h]
  · rw [Nat.testBit_div_two_pow]; congr 1; omega

theorem dropBit_flip_same (I q : ℕ) : dropBit (flipBit I q) q = dropBit I q := by
  apply Nat.eq_of_testBit_eq; intro j
  simp only [testBit_dropBit, testBit_flipBit]
  split_ifs <;> first | rfl | omega

theorem dropBit_flip_lt {I q p : ℕ} (h : p < q) : dropBit (flipBit I p) q = flipBit (dropBit I q) p := by
  apply Nat.eq_of_testBit_eq; intro j
  simp only [testBit_dropBit, testBit_flipBit]
  split_ifs <;> first | rfl | omega | simp_all

theorem dropBit_flip_gt {I q p : ℕ} (h : q < p) : dropBit (flipBit I p) q = flipBit (dropBit I q) (p - 1) := by
  apply Nat.eq_of_testBit_eq; intro j
  simp only [testBit_dropBit, testBit_flipBit]
  split_ifs <;> first | rfl | omega | (congr 2; omega)

namespace Taper

/-- the position of qubit `q` after the listed qubits are removed -/
def newPos (sig : List ℕ) (q : ℕ) : ℕ := q - (sig.filter fun t => q > t).length

theorem filter_len_le {sig : List ℕ} {q : ℕ} (hp : sig.Pairwise (· > ·)) : (sig.filter fun t => q > t).length ≤ q := by
  refine descending_length _ _ (hp.filter _) ?_
  intro s hs
  simpa using (List.mem_filter.1 hs).2

theorem newPos_cons {a q : ℕ} {sig : List ℕ} (hp : (a :: sig).Pairwise (· > ·)) (hq : q ∉ a :: sig) :
    newPos (a :: sig) q = newPos sig (if q < a then q else q - 1) := by
  rw [List.pairwise_cons] at hp
  have hne : q ≠ a := fun h => hq (by simp [h])
  unfold newPos
  by_cases h : q < a
  · rw [if_pos h, List.filter_cons_of_neg (by simp; omega)]
  · rw [if_neg h, List.filter_cons_of_pos (by simp; omega), List.length_cons]
    have e : (sig.filter fun t => decide (q - 1 > t)) = sig.filter fun t => decide (q > t) := by
      apply List.filter_congr
      intro t ht
      have := hp.1 t ht
      simp only [decide_eq_decide]; omega
    rw [e]; omega

theorem not_mem_shift {a q : ℕ} {sig : List ℕ} (hp : (a :: sig).Pairwise (· > ·)) (hq : q ∉ a :: sig) : (if q < a then q else q - 1) ∉ sig := by
  rw [List.pairwise_cons] at hp
  simp only [List.mem_cons, not_or] at hq
  split_ifs with h
  · exact hq.2
  · intro hm
    have := hp.1 _ hm
    omega

theorem compress_testBit : ∀ (sig : List ℕ) (I q : ℕ), sig.Pairwise (· > ·) → q ∉ sig → (compress sig I).testBit (newPos sig q) = I.testBit q
  | [], I, q, _, _ => by simp [compress, newPos]
  | a :: sig, I, q, hp, hq => by
    have h1 := compress_testBit sig (dropBit I a) (if q < a then q else q - 1) (List.pairwise_cons.1 hp).2 (not_mem_shift hp hq)
    rw [newPos_cons hp hq]
    show (compress sig (dropBit I a)).testBit _ = _
    rw [h1, testBit_dropBit]
    have hne : q ≠ a := fun h => hq (by simp [h])
    by_cases h : q < a
    · simp [h]
    · rw [if_neg h, if_neg (by omega)]; congr 1; omega

theorem compress_flip : ∀ (sig : List ℕ) (I q : ℕ), sig.Pairwise (· > ·) → q ∉ sig → compress sig (flipBit I q) = flipBit (compress sig I) (newPos sig q)
  | [], I, q, _, _ => by simp [compress, newPos]
  | a :: sig, I, q, hp, hq => by
    have h1 := compress_flip sig (dropBit I a) (if q < a then q else q - 1) (List.pairwise_cons.1 hp).2 (not_mem_shift hp hq)
    rw [newPos_cons hp hq]
    show compress sig (dropBit (flipBit I q) a) = flipBit (compress sig (dropBit I a)) _
    rw [← h1]
    have hne : q ≠ a := fun h => hq (by simp [h])
    by_cases h : q < a
    · rw [if_pos h, dropBit_flip_lt h]
    · rw [if_neg h, dropBit_flip_gt (by omega)]

theorem compress_flip_mem : ∀ (sig : List ℕ) (I q : ℕ), sig.Pairwise (· > ·) → q ∈ sig → compress sig (flipBit I q) = compress sig I
  | [], I, q, _, h => by simp at h
  | a :: sig, I, q, hp, hq => by
    show compress sig (dropBit (flipBit I q) a) = compress sig (dropBit I a)
    rw [List.pairwise_cons] at hp
    by_cases h : q = a
    · subst h; rw [dropBit_flip_same]
    · have hm : q ∈ sig := by simpa [h] using hq
      rw [dropBit_flip_lt (hp.1 q hm), compress_flip_mem sig _ q hp.2 hm]

/-- the sign factor -/
noncomputable def sgnAt (sig : List ℕ) (sign : List ℤ) (I : ℕ) : ℂ := ((sig.zip sign).map fun t => if I.testBit t.1 then (t.2 : ℂ) else 1).prod

theorem sgnAt_flip_out {sig : List ℕ} {sign : List ℤ} {q : ℕ} (hq : q ∉ sig) (I : ℕ) : sgnAt sig sign (flipBit I q) = sgnAt sig sign I := by
  unfold sgnAt
  congr 1
  apply List.map_congr_left
  intro t ht
  have hne : t.1 ≠ q := fun h => hq (h ▸ (List.of_mem_zip ht).1)
  rw [testBit_flipBit, if_neg hne]

theorem sgnAt_flip_mem : ∀ (sig : List ℕ) (sign : List ℤ) (i : ℕ) (I : ℕ), sig.Nodup → sign.length = sig.length → (∀ s ∈ sign, s = 1 ∨ s = -1) → i < sig.length →
    sgnAt sig sign (flipBit I (sig.getD i 0)) = (sign.getD i 0 : ℂ) * sgnAt sig sign I
  | [], _, i, I, _, _, _, h => by simp at h
  | a :: sig, [], i, I, _, hl, _, _ => by simp at hl
  | a :: sig, s :: sign, 0, I, nd, hl, hs, _ => by
    have hne : a ∉ sig := (List.nodup_cons.1 nd).1
    have e := sgnAt_flip_out (sign := sign) hne I
    have h1 : ∀ J, sgnAt (a :: sig) (s :: sign) J = (if J.testBit a then (s : ℂ) else 1) * sgnAt sig sign J := fun J => by
      simp [sgnAt]
    simp only [List.getD_cons_zero]
    rw [h1, h1, e, testBit_flipBit, if_pos rfl]
    have hss : (s : ℂ) * s = 1 := by rcases hs s (by simp) with rfl | rfl <;> norm_num
    cases I.testBit a
    · simp
    · simp only [Bool.not_true, Bool.false_eq_true, if_false, if_true]
      rw [← mul_assoc, hss]
  | a :: sig, s :: sign, i + 1, I, nd, hl, hs, hi => by
    have ih := sgnAt_flip_mem sig sign i I (List.nodup_cons.1 nd).2 (by simpa using hl) (fun x hx => hs x (by simp [hx])) (by simpa using hi)
    have hi' : i < sig.length := by simpa using hi
    have hne : a ≠ sig.getD i 0 := by
      rw [List.getD_eq_getElem _ _ hi']
      rintro rfl
      exact (List.nodup_cons.1 nd).1 (List.getElem_mem _)
    have h1 : ∀ J, sgnAt (a :: sig) (s :: sign) J = (if J.testBit a then (s : ℂ) else 1) * sgnAt sig sign J := fun J => by
      simp [sgnAt]
    simp only [List.getD_cons_succ]
    rw [h1, h1, testBit_flipBit, if_neg hne, ih]; ring

/-- the tapered qubits are in the chosen eigenvector of X -/
theorem opX_untaper {sig : List ℕ} {sign : List ℤ} (hp : sig.Pairwise (· > ·)) (hl : sign.length = sig.length) (hs : ∀ s ∈ sign, s = 1 ∨ s = -1)
    {i : ℕ} (hi : i < sig.length) (φ : St) : opX (sig.getD i 0) (untaper sig sign φ) = (sign.getD i 0 : ℂ) • untaper sig sign φ := by
  funext I
  have hm : sig.getD i 0 ∈ sig := by rw [List.getD_eq_getElem _ _ hi]; exact List.getElem_mem _
  have nd : sig.Nodup := hp.imp (fun h => by omega)
  have := sgnAt_flip_mem sig sign i I nd hl hs hi
  rw [opX_apply, Pi.smul_apply, smul_eq_mul]
  unfold untaper
  rw [compress_flip_mem sig I _ hp hm]
  unfold sgnAt at this
  rw [this]; ring

theorem untaper_smul (sig : List ℕ) (sign : List ℤ) (z : ℂ) (φ : St) : untaper sig sign (z • φ) = z • untaper sig sign φ := by
  funext I
  simp only [untaper, Pi.smul_apply, smul_eq_mul]; ring

theorem untaper_add (sig : List ℕ) (sign : List ℤ) (φ ψ : St) : untaper sig sign (φ + ψ) = untaper sig sign φ + untaper sig sign ψ := by
  funext I
  simp only [untaper, Pi.add_apply]; ring

theorem untaper_zero (sig : List ℕ) (sign : List ℤ) : untaper sig sign 0 = 0 := by
  funext I; simp [untaper]

theorem opX_untaper_out {sig : List ℕ} {sign : List ℤ} (hp : sig.Pairwise (· > ·)) {q : ℕ} (hq : q ∉ sig) (φ : St) :
    opX q (untaper sig sign φ) = untaper sig sign (opX (newPos sig q) φ) := by
  funext I
  have := sgnAt_flip_out (sign := sign) hq I
  unfold sgnAt at this
  rw [opX_apply]
  unfold untaper
  rw [compress_flip sig I q hp hq, this, opX_apply]

theorem opZ_untaper_out {sig : List ℕ} {sign : List ℤ} (hp : sig.Pairwise (· > ·)) {q : ℕ} (hq : q ∉ sig) (φ : St) :
    opZ q (untaper sig sign φ) = untaper sig sign (opZ (newPos sig q) φ) := by
  funext I
  rw [opZ_apply]
  unfold untaper
  rw [opZ_apply, compress_testBit sig I q hp hq]; ring

theorem pauliL_untaper_out {sig : List ℕ} {sign : List ℤ} (hp : sig.Pairwise (· > ·)) {q : ℕ} (hq : q ∉ sig) {l : String} (hl : IsXYZ l) (φ : St) :
    pauliL l q (untaper sig sign φ) = untaper sig sign (pauliL l (newPos sig q) φ) := by
  have eY : ∀ p, QF.opY p = Complex.I • (QF.opX p * QF.opZ p) := fun p => by rw [opX_opZ, smul_smul]; simp
  rcases hl with rfl | rfl | rfl
  · rw [pauliL_X, pauliL_X]; exact opX_untaper_out hp hq φ
  · rw [pauliL_Y, pauliL_Y, eY, eY, LinearMap.smul_apply, LinearMap.smul_apply, Module.End.mul_apply, Module.End.mul_apply, opZ_untaper_out hp hq,
      opX_untaper_out hp hq, untaper_smul]
  · rw [pauliL_Z, pauliL_Z]; exact opZ_untaper_out hp hq φ

/-- X, Y or Z gates as `qforte.gate` makes them -/
def MadeXYZ (c : Circuit) : Prop := ∀ g ∈ c, IsXYZ g.label ∧ makeGate g.label g.target g.target 0 = .ok g

theorem MadeXYZ.api {c : Circuit} (h : MadeXYZ c) : ∀ g ∈ c, ApiGate g ∧ (g.label = "X" ∨ g.label = "Y" ∨ g.label = "Z") :=
  fun g hg => ⟨.make (h g hg).2, (h g hg).1⟩

theorem taper_term {sig : List ℕ} {sign : List ℤ} (hp : sig.Pairwise (· > ·)) (hl : sign.length = sig.length) (hs : ∀ s ∈ sign, s = 1 ∨ s = -1) :
    ∀ (c : Circuit) (z : ℂ) (d : Circuit), MadeXYZ c → (∀ g ∈ c, g.target ∈ sig → g.label = "X") →
    ∃ (k : ℂ) (c' : Circuit), (k = 1 ∨ k = -1) ∧ c.foldlM (taperGate sig sign) (z, d) = .ok (z * k, d ++ c') ∧ MadeXYZ c' ∧
      ∀ φ, c.opLR (untaper sig sign φ) = k • untaper sig sign (Circuit.opLR c' φ)
  | [], z, d, _, _ => ⟨1, [], .inl rfl, by simp [pure, Except.pure], fun g hg => by simp at hg, fun φ => by simp [Circuit.opLR]⟩
  | g :: c, z, d, hc, hx => by
    have hg := hc g (by simp)
    have gop : g.op = pauliL g.label g.target := make_pauli_op hg.1 hg.2
    have nd : sig.Nodup := hp.imp (fun h => by omega)
    by_cases hm : g.target ∈ sig
    · obtain ⟨i, hi, ei⟩ := List.getElem_of_mem hm
      have hf : (List.range sig.length).filter (fun j => sig.getD j 0 = g.target) = [i] := by
        rw [filter_single]
        refine ⟨hi, fun q hq => ?_⟩
        rw [decide_eq_true_eq, List.getD_eq_getElem _ _ hq, ← ei]
        exact nd.getElem_inj_iff
      obtain ⟨k, c', hk, e, hc', hop⟩ := taper_term hp hl hs c (z * (sign.getD i 0 : ℂ)) d (fun x h => hc x (by simp [h])) (fun x h => hx x (by simp [h]))
      have hsi : (sign.getD i 0 : ℂ) = 1 ∨ (sign.getD i 0 : ℂ) = -1 := by
        have hi' : i < sign.length := by omega
        rw [List.getD_eq_getElem _ _ hi']
        rcases hs _ (List.getElem_mem hi') with h | h <;> rw [h] <;> simp
      refine ⟨(sign.getD i 0 : ℂ) * k, c', ?_, ?_, hc', ?_⟩
      · rcases hk with rfl | rfl <;> rcases hsi with h | h <;> rw [h] <;> simp
      · rw [List.foldlM_cons]
        have e1 : taperGate sig sign (z, d) g = .ok (z * (sign.getD i 0 : ℂ), d) := by
          unfold taperGate; rw [if_pos hm, hf]
        rw [e1, except_ok_bind, e, mul_assoc]
      · intro φ
        rw [Circuit.opLR_cons, Module.End.mul_apply, hop, map_smul, gop, hx g (by simp) hm, pauliL_X, ← ei,
          ← List.getD_eq_getElem sig 0 hi, opX_untaper hp hl hs hi, smul_smul, mul_comm]
    · obtain ⟨x, ex⟩ : ∃ x, makeGate g.label (newPos sig g.target) (newPos sig g.target) 0 = .ok x ∧ x.label = g.label ∧ x.target = newPos sig g.target := by
        rcases hg.1 with h | h | h <;> rw [h]
        · exact ⟨_, make_X _ 0, rfl, rfl⟩
        · exact ⟨_, make_Y _ 0, rfl, rfl⟩
        · exact ⟨_, make_Z _ 0, rfl, rfl⟩
      obtain ⟨k, c', hk, e, hc', hop⟩ := taper_term hp hl hs c z (d.addGate x) (fun y h => hc y (by simp [h])) (fun y h => hx y (by simp [h]))
      refine ⟨k, x :: c', hk, ?_, ?_, ?_⟩
      · have e1 : taperGate sig sign (z, d) g = .ok (z, d.addGate x) := by
          unfold taperGate; rw [if_neg hm]
          have e2 : pyGate1 g.label (g.target - (sig.filter fun t => g.target > t).length) 0 = .ok x := by
            unfold pyGate1
            rw [if_neg (by simp), if_pos (by rcases hg.1 with h | h | h <;> rw [h] <;> decide)]
            exact ex.1
          rw [e2]; rfl
        rw [List.foldlM_cons, e1, except_ok_bind, e]
        simp [Circuit.addGate]
      · intro y hy
        rcases List.mem_cons.1 hy with rfl | hy
        · rw [ex.2.1, ex.2.2]; exact ⟨hg.1, ex.1⟩
        · exact hc' y hy
      · intro φ
        rw [Circuit.opLR_cons, Circuit.opLR_cons, Module.End.mul_apply, Module.End.mul_apply, hop, map_smul, gop, make_pauli_op hg.1 ex.1,
          pauliL_untaper_out hp hm hg.1]

theorem taper_terms {sig : List ℕ} {sign : List ℤ} (hp : sig.Pairwise (· > ·)) (hl : sign.length = sig.length) (hs : ∀ s ∈ sign, s = 1 ∨ s = -1) :
    ∀ (T R : QubitOperator), (∀ t ∈ T, MadeXYZ t.2 ∧ ∀ g ∈ t.2, g.target ∈ sig → g.label = "X") →
    ∃ R', T.foldlM (fun (R : QubitOperator) t => do
      let (coeff, circuit) ← t.2.foldlM (taperGate sig sign) (t.1, [])
      pure (R.addTerm coeff circuit)) R = .ok (R ++ R') ∧ QubitOperator.IsPauli R' ∧
      ∀ φ, T.opLR (untaper sig sign φ) = untaper sig sign (QubitOperator.opLR R' φ)
  | [], R, _ => ⟨[], by simp [pure, Except.pure], fun t ht => by simp at ht, fun φ => by
      simp only [QubitOperator.opLR, List.map_nil, List.sum_nil, LinearMap.zero_apply]
      exact (untaper_zero _ _).symm⟩
  | t :: T, R, h => by
    have ht := h t (by simp)
    obtain ⟨k, c', hk, e, hc', hop⟩ := taper_term hp hl hs t.2 t.1 [] ht.1 ht.2
    obtain ⟨R', e', hR', hop'⟩ := taper_terms hp hl hs T (R.addTerm (t.1 * k) c') (fun u hu => h u (by simp [hu]))
    refine ⟨(t.1 * k, c') :: R', ?_, ?_, ?_⟩
    · rw [List.foldlM_cons, e]
      simp only [except_ok_bind, List.nil_append, pure, Except.pure] at e' ⊢
      rw [e']
      simp [QubitOperator.addTerm]
    · intro u hu
      rcases List.mem_cons.1 hu with rfl | hu
      · exact hc'.api
      · exact hR' u hu
    · intro φ
      simp only [QubitOperator.opLR, List.map_cons, List.sum_cons, LinearMap.add_apply, LinearMap.smul_apply] at hop' ⊢
      rw [hop', hop, untaper_add, untaper_smul, smul_smul]

end Taper
end QF
