import Verif.Lemmas.Skew
import Verif.Lemmas.Support

/-!
All Pauli strings of an excitation operator `t - t†` have coefficients of the same modulus.
-/
namespace QF

/-- a character of the bit strings with XOR -/
structure IsChar (χ : ℕ → ℂ) : Prop where
  zero : χ 0 = 1
  xor : ∀ I J, χ (I ^^^ J) = χ I * χ J

theorem IsChar.sq {χ : ℕ → ℂ} (h : IsChar χ) (I : ℕ) : χ I * χ I = 1 := by rw [← h.xor, Nat.xor_self, h.zero]

theorem IsChar.cases {χ : ℕ → ℂ} (h : IsChar χ) (I : ℕ) : χ I = 1 ∨ χ I = -1 := by
  have := h.sq I
  have h2 : (χ I - 1) * (χ I + 1) = 0 := by linear_combination this
  rcases mul_eq_zero.1 h2 with h | h
  · left; linear_combination h
  · right; linear_combination h

theorem IsChar.one : IsChar fun _ => 1 := ⟨rfl, fun _ _ => by simp⟩

theorem IsChar.mul {χ η : ℕ → ℂ} (h : IsChar χ) (g : IsChar η) : IsChar fun I => χ I * η I :=
  ⟨by rw [h.zero, g.zero, one_mul], fun I J => by rw [h.xor, g.xor]; ring⟩

/-- the character of one bit -/
noncomputable def bitChar (p I : ℕ) : ℂ := if I.testBit p then -1 else 1

theorem bitChar_char (p : ℕ) : IsChar (bitChar p) := by
  refine ⟨by simp [bitChar], fun I J => ?_⟩
  unfold bitChar
  rw [Nat.testBit_xor]
  cases I.testBit p <;> cases J.testBit p <;> simp

/-- a constant of modulus 1 times a character -/
def Aff (f : ℕ → ℂ) : Prop := ∃ z χ, ‖z‖ = 1 ∧ IsChar χ ∧ ∀ I, f I = z * χ I

theorem Aff.one : Aff fun _ => 1 := ⟨1, _, by simp, .one, fun _ => by simp⟩

theorem Aff.mul {f g : ℕ → ℂ} (hf : Aff f) (hg : Aff g) : Aff fun I => f I * g I := by
  obtain ⟨z, χ, h1, h2, h3⟩ := hf
  obtain ⟨w, η, g1, g2, g3⟩ := hg
  exact ⟨z * w, _, by simp [h1, g1], h2.mul g2, fun I => by simp only [h3, g3]; ring⟩

theorem Aff.shift {f : ℕ → ℂ} (hf : Aff f) (m : ℕ) : Aff fun I => f (I ^^^ m) := by
  obtain ⟨z, χ, h1, h2, h3⟩ := hf
  refine ⟨z * χ m, χ, ?_, h2, fun I => by simp only [h3, h2.xor]; ring⟩
  rcases h2.cases m with h | h <;> simp [h, h1]

theorem gph_aff {g : Gate} (h : IsXYZ g.label) : Aff (gph g) := by
  rcases h with hl | hl | hl
  · exact ⟨1, _, by simp, .one, fun I => by simp [gph, hl]⟩
  · refine ⟨-Complex.I, _, by simp, bitChar_char g.target, fun I => ?_⟩
    simp only [gph, hl, bitChar]
    by_cases h : I.testBit g.target <;> simp [h]
  · refine ⟨1, _, by simp, bitChar_char g.target, fun I => ?_⟩
    simp [gph, hl, bitChar]

theorem sph_aff {s : Circuit} (hs : ∀ g ∈ s, PauliGate g) : Aff (sph s) := by
  induction s with
  | nil => exact Aff.one
  | cons g s ih =>
    exact (gph_aff (hs g (by simp)).letter).mul ((ih fun g hg => hs g (by simp [hg])).shift _)

theorem fsign_char (p : ℕ) : IsChar fun I => fsign I p := by
  induction p with
  | zero =>
    have : (fun I => fsign I 0) = fun _ => 1 := by funext I; exact fsign_zero I
    rw [this]; exact .one
  | succ p ih =>
    have : (fun I => fsign I (p + 1)) = fun I => fsign I p * bitChar p I := by
      funext I
      unfold fsign bitChar
      rw [nBelow_succ, pow_add]
      by_cases h : I.testBit p <;> simp [h]
    rw [this]; exact ih.mul (bitChar_char p)

theorem lsign_aff (l : List (Bool × ℕ)) : Aff (lsign l) := by
  induction l with
  | nil => exact Aff.one
  | cons x l ih => exact Aff.mul ⟨1, _, by simp, fsign_char x.2, fun I => by simp⟩ (ih.shift (2 ^ x.2))

/-! ### the determinants on which a string of ladder operators does not vanish -/

/-- bit strings that are zero at the orbitals of `P` -/
def Off (P : Finset ℕ) (v : ℕ) : Prop := ∀ p ∈ P, v.testBit p = false

theorem lvalid_shift : ∀ (l : List (Bool × ℕ)) (I v : ℕ), Off (l.map Prod.snd).toFinset v → lvalid l (I ^^^ v) = lvalid l I
  | [], _, _, _ => rfl
  | x :: l, I, v, h => by
    have h1 : v.testBit x.2 = false := h _ (by simp)
    have e : flipBit (I ^^^ v) x.2 = flipBit I x.2 ^^^ v := by unfold flipBit; rw [Nat.xor_assoc, Nat.xor_assoc, Nat.xor_comm v]
    simp only [lvalid]
    rw [e, lvalid_shift l _ v (fun p hp => h p (by simp only [List.mem_toFinset, List.map_cons, List.mem_cons] at hp ⊢; exact .inr hp)), Nat.testBit_xor, h1, Bool.xor_false]

theorem lvalid_diff : ∀ (l : List (Bool × ℕ)) (I J : ℕ), lvalid l I = true → lvalid l J = true → Off (l.map Prod.snd).toFinset (I ^^^ J)
  | [], _, _, _, _ => fun p hp => by simp at hp
  | x :: l, I, J, hI, hJ => fun p hp => by
    simp only [lvalid, Bool.and_eq_true, decide_eq_true_eq] at hI hJ
    have ih := lvalid_diff l _ _ hI.2 hJ.2
    have e : flipBit I x.2 ^^^ flipBit J x.2 = I ^^^ J := by
      unfold flipBit
      rw [Nat.xor_assoc, Nat.xor_comm (2 ^ x.2), Nat.xor_assoc, Nat.xor_self, Nat.xor_zero]
    rw [e] at ih
    simp only [List.mem_toFinset, List.map_cons, List.mem_cons] at hp
    rcases hp with rfl | hp
    · rw [Nat.testBit_xor, hI.1, hJ.1, Bool.xor_self]
    · exact ih p (by simpa using hp)

theorem sum_xor (n m : ℕ) (hm : m < 2 ^ n) (f : ℕ → ℂ) : ∑ I ∈ Finset.range (2 ^ n), f (I ^^^ m) = ∑ I ∈ Finset.range (2 ^ n), f I := by
  refine Finset.sum_nbij' (fun I => I ^^^ m) (fun I => I ^^^ m) ?_ ?_ ?_ ?_ fun _ _ => rfl
  · intro I hI; exact Finset.mem_range.2 (Nat.xor_lt_two_pow (Finset.mem_range.1 hI) hm)
  · intro I hI; exact Finset.mem_range.2 (Nat.xor_lt_two_pow (Finset.mem_range.1 hI) hm)
  · intro I _; simp only [Nat.xor_assoc, Nat.xor_self, Nat.xor_zero]
  · intro I _; simp only [Nat.xor_assoc, Nat.xor_self, Nat.xor_zero]

open Classical in
/-- the sum of a character over the strings that are zero at `P` -/
theorem sum_off (n : ℕ) (P : Finset ℕ) {χ : ℕ → ℂ} (h : IsChar χ) :
    (∑ v ∈ Finset.range (2 ^ n), if Off P v then χ v else 0) = 0 ∨
    (∑ v ∈ Finset.range (2 ^ n), if Off P v then χ v else 0) = ∑ v ∈ Finset.range (2 ^ n), if Off P v then 1 else 0 := by
  by_cases hv : ∃ v < 2 ^ n, Off P v ∧ χ v = -1
  · obtain ⟨v, h1, h2, h3⟩ := hv
    left
    have := sum_xor n v h1 fun w => if Off P w then χ w else 0
    have e : ∀ w, (if Off P (w ^^^ v) then χ (w ^^^ v) else 0) = -(if Off P w then χ w else 0) := by
      intro w
      have : Off P (w ^^^ v) ↔ Off P w := forall₂_congr fun p hp => by rw [Nat.testBit_xor, h2 p hp, Bool.xor_false]
      rw [h.xor, h3]
      by_cases hw : Off P w
      · rw [if_pos (this.2 hw), if_pos hw]; ring
      · rw [if_neg (fun x => hw (this.1 x)), if_neg hw, neg_zero]
    simp only [e, Finset.sum_neg_distrib] at this
    have h2 : (2 : ℂ) * (∑ v ∈ Finset.range (2 ^ n), if Off P v then χ v else 0) = 0 := by linear_combination -this
    exact (mul_eq_zero.1 h2).resolve_left two_ne_zero
  · right
    refine Finset.sum_congr rfl fun v hv' => ?_
    by_cases ho : Off P v
    · rw [if_pos ho, if_pos ho]
      rcases h.cases v with h | h
      · exact h
      · exact absurd ⟨v, Finset.mem_range.1 hv', ho, h⟩ hv
    · rw [if_neg ho, if_neg ho]

open Classical in
theorem card_off (n : ℕ) (P : Finset ℕ) (hP : ∀ p ∈ P, p < n) : (∑ v ∈ Finset.range (2 ^ n), if Off P v then (1 : ℂ) else 0) * 2 ^ P.card = 2 ^ n := by
  induction P using Finset.induction_on with
  | empty => simp [Off]
  | @insert p P hp ih =>
    have hpn : p < n := hP p (by simp)
    have hlt : 2 ^ p < 2 ^ n := Nat.pow_lt_pow_right (by norm_num) hpn
    rw [Finset.card_insert_of_notMem hp, ← ih fun q hq => hP q (by simp [hq])]
    have e : ∀ v, (if Off P v then (1 : ℂ) else 0) = (if Off (insert p P) v then 1 else 0) + if Off (insert p P) (v ^^^ 2 ^ p) then 1 else 0 := by
      intro v
      have h0 : Off P (v ^^^ 2 ^ p) ↔ Off P v := forall₂_congr fun q hq => by
        rw [Nat.testBit_xor, Nat.testBit_two_pow, decide_eq_false (fun e : p = q => hp (e ▸ hq)), Bool.xor_false]
      have h1 : ∀ w, Off (insert p P) w ↔ w.testBit p = false ∧ Off P w := fun w => by simp [Off]
      have h2 : (v ^^^ 2 ^ p).testBit p = !v.testBit p := by rw [Nat.testBit_xor, Nat.testBit_two_pow]; simp
      by_cases ho : Off P v
      · cases hb : v.testBit p
        · rw [if_pos ho, if_pos ((h1 v).2 ⟨hb, ho⟩), if_neg (fun x => by have := ((h1 _).1 x).1; rw [h2, hb] at this; cases this), add_zero]
        · rw [if_pos ho, if_neg (fun x => by have := ((h1 _).1 x).1; rw [hb] at this; cases this), if_pos ((h1 _).2 ⟨by rw [h2, hb]; rfl, h0.2 ho⟩), zero_add]
      · rw [if_neg ho, if_neg (fun x => ho ((h1 _).1 x).2), if_neg (fun x => ho (h0.1 ((h1 _).1 x).2)), add_zero]
    have := sum_xor n (2 ^ p) hlt fun v => if Off (insert p P) v then (1 : ℂ) else 0
    simp only [e, Finset.sum_add_distrib]
    rw [this]
    ring

/-! ### the coefficients -/

theorem sum_single_list {α : Type*} [DecidableEq α] {l : List α} (hn : l.Nodup) {y : α} (hy : y ∈ l) (b : ℂ) : (l.map fun x => if y = x then b else 0).sum = b := by
  induction l with
  | nil => simp at hy
  | cons x l ih =>
    rw [List.nodup_cons] at hn
    rw [List.map_cons, List.sum_cons]
    by_cases h : y = x
    · subst h
      have : l.map (fun x => if y = x then b else 0) = l.map fun _ => 0 := List.map_congr_left fun x hx => if_neg (fun e : y = x => hn.1 (e ▸ hx))
      rw [if_pos rfl, this]; simp
    · rw [if_neg h, zero_add]
      exact ih hn.2 (by rcases List.mem_cons.1 hy with e | e; exacts [absurd e h, e])

theorem sum_list_comm {α : Type*} (l : List α) (s : Finset ℕ) (f : ℕ → α → ℂ) : (l.map fun u => ∑ I ∈ s, f I u).sum = ∑ I ∈ s, (l.map fun u => f I u).sum := by
  induction l with
  | nil => simp
  | cons x l ih => simp only [List.map_cons, List.sum_cons, ih, Finset.sum_add_distrib]

theorem aff_low {s : Circuit} {n : ℕ} (hs : ∀ g ∈ s, PauliGate g) (hn : ∀ g ∈ s, g.target < n) : ∀ I J, (∀ q < n, I.testBit q = J.testBit q) → sph s I = sph s J := by
  induction s with
  | nil => intro I J _; rfl
  | cons g s ih =>
    intro I J h
    have hg := hn g (by simp)
    simp only [sph]
    rw [ih (fun g hg => hs g (by simp [hg])) (fun g hg => hn g (by simp [hg])) _ (J ^^^ (if g.label = "X" ∨ g.label = "Y" then 2 ^ g.target else 0)) (fun q hq => by
      rw [Nat.testBit_xor, Nat.testBit_xor, h q hq])]
    congr 1
    unfold gph
    rw [h _ hg]

open Classical in
/-- the strings of `t - t†` for a string `t` of ladder operators on the orbitals `P`: all coefficients have the modulus `2 / 2 ^ |P|` -/
theorem kappa_flat {n : ℕ} {F : QubitOperator} (hF : ∀ t ∈ F, t.2.Canonical) (hn : (F.map Prod.snd).Nodup) (q : Bool) (c a : List ℕ) (hF0 : ∀ t ∈ F, t.1 ≠ 0)
    (h : F.opLR = kappa q c a) (hs : ∀ t ∈ F, ∀ g ∈ t.2, g.target < n) (hb : ∀ p ∈ c ++ a, p < n) :
    ∀ t ∈ F, ‖t.1‖ * 2 ^ (c ++ a).toFinset.card = 2 := by
  set l := caList c a with hl
  have hPl : (l.map Prod.snd).toFinset = (c ++ a).toFinset := by rw [hl, caList_snd]
  set m := lmask l with hm
  have hml : m < 2 ^ n := by
    have : ∀ l : List (Bool × ℕ), (∀ p ∈ l.map Prod.snd, p < n) → lmask l < 2 ^ n := by
      intro l
      induction l with
      | nil => intro _; simp [lmask]
      | cons x l ih =>
        intro hx
        simp only [lmask, List.foldr_cons]
        exact Nat.xor_lt_two_pow (Nat.pow_lt_pow_right (by norm_num) (hx _ (by simp))) (ih fun p hp => hx p (by simp [hp]))
    exact this l (by rw [hl, caList_snd]; exact hb)
  have hsk : ∀ t ∈ F, xmask t.2 = m := fun t ht => (skew_strings hF hn (h ▸ kappa_skew q c a) t ht (hF0 t ht)).2.1
  -- the matrix
  obtain ⟨z, χ, hz, hχ, hzχ⟩ : Aff fun I => if q then 1 else lsign l I := by
    cases q
    · exact lsign_aff l
    · exact Aff.one
  let A : ℕ → ℂ := fun I => if lvalid l I then z * χ I else 0
  have hxx : ∀ I, I ^^^ m ^^^ m = I := fun I => by rw [Nat.xor_assoc, Nat.xor_self, Nat.xor_zero]
  have hadj : ∀ I, lflip (ladj l) I = I ^^^ m := fun I => by rw [lflip_xor, lmask_adj]
  have hk : ∀ I, (F.map fun t => t.1 * sph t.2 I).sum = A I - A (I ^^^ m) := by
    intro I
    have h1 : F.opLR (fun _ => 1) I = (F.map fun t => t.1 * sph t.2 I).sum := by rw [opLR_entry hF]; simp
    rw [← h1, h]
    have e1 := (l_adj l I).1
    have e2 := (l_adj l I).2.1
    rw [hadj] at e1 e2
    have hv : ∀ J, (if lvalid l J then (if q then 1 else lsign l J) else 0) = A J := fun J => by
      have := hzχ J
      simp only at this
      rw [this]
    cases q
    · simp only [kappa, Bool.false_eq_true, if_false, LinearMap.sub_apply, Pi.sub_apply]
      rw [fermiString_eq, fermiString_eq, ← ladj_caList, ← hl, ladders_apply, ladders_apply, e1, e2, ← hv, ← hv]
      simp
    · simp only [kappa, if_true, LinearMap.sub_apply, Pi.sub_apply]
      rw [qubitString_eq, qubitString_eq, ← ladj_caList, ← hl, qladders_apply, qladders_apply, e1, ← hv, ← hv]
      simp
  intro t ht
  obtain ⟨w, η, hw, hη, hwη⟩ := sph_aff (canon_pauliGate (hF t ht))
  -- the transform of the left-hand side
  have hleft : ∑ I ∈ Finset.range (2 ^ n), η I * (F.map fun t => t.1 * sph t.2 I).sum = t.1 * w * 2 ^ n := by
    have hdist : ∀ u ∈ F, u.2 ≠ t.2 → ∑ I ∈ Finset.range (2 ^ n), η I * (u.1 * sph u.2 I) = 0 := by
      intro u hu hne
      obtain ⟨w', η', hw', hη', hwη'⟩ := sph_aff (canon_pauliGate (hF u hu))
      by_cases hv : ∃ v < 2 ^ n, η v * η' v = -1
      · obtain ⟨v, hv1, hv2⟩ := hv
        have := sum_xor n v hv1 fun I => η I * (u.1 * sph u.2 I)
        have e : ∀ I, η (I ^^^ v) * (u.1 * sph u.2 (I ^^^ v)) = -(η I * (u.1 * sph u.2 I)) := fun I => by
          rw [hwη', hwη', hη.xor, hη'.xor]
          linear_combination u.1 * w' * η I * η' I * hv2
        simp only [e, Finset.sum_neg_distrib] at this
        have h2 : (2 : ℂ) * (∑ I ∈ Finset.range (2 ^ n), η I * (u.1 * sph u.2 I)) = 0 := by linear_combination -this
        exact (mul_eq_zero.1 h2).resolve_left two_ne_zero
      · exfalso
        have hsame : ∀ v < 2 ^ n, η v = η' v := by
          intro v hv'
          rcases hη.cases v with e1 | e1 <;> rcases hη'.cases v with e2 | e2
          · rw [e1, e2]
          · exact absurd ⟨v, hv', by rw [e1, e2]; ring⟩ hv
          · exact absurd ⟨v, hv', by rw [e1, e2]; ring⟩ hv
          · rw [e1, e2]
        have hw0 : w' ≠ 0 := by rintro rfl; simp at hw'
        have hprop : ∀ I, sph t.2 I = w / w' * sph u.2 I := by
          intro I
          have hlow : ∀ q < n, I.testBit q = (I % 2 ^ n).testBit q := fun q hq => by rw [Nat.testBit_mod_two_pow]; simp [hq]
          rw [aff_low (canon_pauliGate (hF t ht)) (hs t ht) I _ hlow, aff_low (canon_pauliGate (hF u hu)) (hs u hu) I _ hlow, hwη, hwη',
            hsame _ (Nat.mod_lt _ (by positivity))]
          field_simp
        have := recoef_eq hF hn (fun x => if x = t then 1 else 0) (fun x => if x = u then w / w' else 0) (by
          refine Op.ext' fun ψ I => ?_
          rw [recoef_entry hF, recoef_entry hF]
          have hnd : F.Nodup := List.Nodup.of_map _ hn
          have single : ∀ (y : ℂ × Circuit) (b : ℂ), y ∈ F → (F.map fun x => (if x = y then b else 0) * sph x.2 I * ψ (I ^^^ xmask x.2)).sum = b * sph y.2 I * ψ (I ^^^ xmask y.2) := by
            intro y b hy
            have e : (F.map fun x => (if x = y then b else 0) * sph x.2 I * ψ (I ^^^ xmask x.2)) = F.map fun x => if y = x then b * sph y.2 I * ψ (I ^^^ xmask y.2) else 0 := by
              refine List.map_congr_left fun x _ => ?_
              by_cases hxy : x = y
              · subst hxy; simp
              · rw [if_neg hxy, if_neg (Ne.symm hxy)]; ring
            rw [e]
            exact sum_single_list hnd hy _
          rw [single t 1 ht, single u _ hu, hsk t ht, hsk u hu, hprop I]; ring) t ht
        have htu : t ≠ u := fun e => hne (by rw [e])
        simp [htu] at this
    have e : ∀ I, η I * (F.map fun t => t.1 * sph t.2 I).sum = (F.map fun u => η I * (u.1 * sph u.2 I)).sum := fun I => by rw [List.sum_map_mul_left]
    simp only [e]
    rw [← sum_list_comm]
    have hnd : F.Nodup := List.Nodup.of_map _ hn
    have e2 : (F.map fun u => ∑ I ∈ Finset.range (2 ^ n), η I * (u.1 * sph u.2 I)) = F.map fun u => if t = u then t.1 * w * 2 ^ n else 0 := by
      refine List.map_congr_left fun u hu => ?_
      by_cases hut : t = u
      · subst hut
        rw [if_pos rfl]
        have : ∀ I, η I * (t.1 * sph t.2 I) = t.1 * w := fun I => by rw [hwη]; linear_combination t.1 * w * hη.sq I
        simp only [this, Finset.sum_const, Finset.card_range, nsmul_eq_mul]
        push_cast; ring
      · rw [if_neg hut]
        refine hdist u hu fun e => hut ?_
        exact (List.inj_on_of_nodup_map hn hu ht e).symm
    rw [e2]
    exact sum_single_list hnd ht _
  -- the transform of the right-hand side
  have hright : ∑ I ∈ Finset.range (2 ^ n), η I * (A I - A (I ^^^ m)) = (1 - η m) * ∑ I ∈ Finset.range (2 ^ n), η I * A I := by
    have := sum_xor n m hml fun I => η (I ^^^ m) * A I
    simp only [hxx] at this
    have e2 : ∑ I ∈ Finset.range (2 ^ n), η (I ^^^ m) * A I = η m * ∑ I ∈ Finset.range (2 ^ n), η I * A I := by
      rw [Finset.mul_sum]; refine Finset.sum_congr rfl fun I _ => ?_; rw [hη.xor]; ring
    simp only [mul_sub, Finset.sum_sub_distrib]
    rw [this, e2]; ring
  have key : t.1 * w * 2 ^ n = (1 - η m) * ∑ I ∈ Finset.range (2 ^ n), η I * A I := by
    rw [← hleft, ← hright]
    exact Finset.sum_congr rfl fun I _ => by rw [hk]
  have hw0 : w ≠ 0 := by rintro rfl; simp at hw
  have hne : t.1 * w * 2 ^ n ≠ 0 := mul_ne_zero (mul_ne_zero (hF0 t ht) hw0) (pow_ne_zero _ two_ne_zero)
  rw [key] at hne
  have h1 : η m = -1 := by
    rcases hη.cases m with e | e
    · rw [e] at hne; simp at hne
    · exact e
  -- the sum over the valid determinants
  obtain ⟨I0, hI0, hv0⟩ : ∃ I0, I0 < 2 ^ n ∧ lvalid l I0 = true := by
    by_contra hno
    push Not at hno
    refine hne ?_
    rw [Finset.sum_eq_zero, mul_zero]
    intro I hI
    simp only [A]
    rw [if_neg (hno I (Finset.mem_range.1 hI)), mul_zero]
  set P := (c ++ a).toFinset with hPdef
  have hval : ∀ v, lvalid l (v ^^^ I0) = true ↔ Off P v := by
    intro v
    rw [← hPl]
    refine ⟨fun hv => ?_, fun hv => ?_⟩
    · have := lvalid_diff l _ _ hv hv0
      rwa [Nat.xor_assoc, Nat.xor_self, Nat.xor_zero] at this
    · rw [Nat.xor_comm, lvalid_shift l I0 v hv]; exact hv0
  have hsum : ∑ I ∈ Finset.range (2 ^ n), η I * A I = η I0 * z * χ I0 * ∑ v ∈ Finset.range (2 ^ n), if Off P v then η v * χ v else 0 := by
    rw [← sum_xor n I0 hI0 fun I => η I * A I, Finset.mul_sum]
    refine Finset.sum_congr rfl fun v _ => ?_
    simp only [A]
    by_cases ho : Off P v
    · rw [if_pos ((hval v).2 ho), if_pos ho, hη.xor, hχ.xor]; ring
    · rw [if_neg (fun x => ho ((hval v).1 x)), if_neg ho]; ring
  have hcard := card_off n P (fun p hp => hb p (List.mem_toFinset.1 hp))
  have hn1 : ∀ {χ : ℕ → ℂ}, IsChar χ → ∀ I, ‖χ I‖ = 1 := fun h I => by rcases h.cases I with e | e <;> simp [e]
  have h2n : ((2 : ℝ) ^ n) ≠ 0 := by positivity
  rcases sum_off n P (hη.mul hχ) with e | e
  · exfalso
    rw [hsum, e, mul_zero, mul_zero] at hne
    exact hne rfl
  · rw [hsum, e, h1] at key
    have hnorm := congrArg (fun x => ‖x * 2 ^ P.card‖) key
    have e3 : (1 - (-1 : ℂ)) * (η I0 * z * χ I0 * ∑ v ∈ Finset.range (2 ^ n), if Off P v then (1 : ℂ) else 0) * 2 ^ P.card = 2 * (η I0 * z * χ I0) * 2 ^ n := by
      rw [← hcard]; ring
    simp only [e3] at hnorm
    simp only [norm_mul, hw, hz, hn1 hη, hn1 hχ, norm_pow, Complex.norm_ofNat, mul_one] at hnorm
    have : (‖t.1‖ * 2 ^ P.card) * 2 ^ n = 2 * 2 ^ n := by rw [← hnorm]; ring
    exact mul_right_cancel₀ h2n this

end QF
