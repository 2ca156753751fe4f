import Verif.Spec.Skew
import Verif.Lemmas.QubitOperator
import Verif.Lemmas.CompactSign
import Verif.Spec.Compact

namespace QF

/-! ### the matrix of a Pauli string -/

/-- which bits a string flips -/
def xmask (s : Circuit) : ℕ := s.foldr (fun g m => (if g.label = "X" ∨ g.label = "Y" then 2 ^ g.target else 0) ^^^ m) 0

/-- (-1)^(number of Y) -/
noncomputable def ysign (s : Circuit) : ℂ := s.foldr (fun g z => (if g.label = "Y" then -1 else 1) * z) 1

/-- phase of one gate at the final determinant `I` -/
noncomputable def gph (g : Gate) (I : ℕ) : ℂ :=
  if g.label = "X" then 1 else if g.label = "Y" then (if I.testBit g.target then Complex.I else -Complex.I)
  else (if I.testBit g.target then -1 else 1)

noncomputable def sph : Circuit → ℕ → ℂ
  | [], _ => 1
  | g :: s, I => gph g I * sph s (I ^^^ (if g.label = "X" ∨ g.label = "Y" then 2 ^ g.target else 0))

theorem gate_mono {g : Gate} (h : PauliGate g) (ψ : St) (I : ℕ) :
    g.op ψ I = gph g I * ψ (I ^^^ (if g.label = "X" ∨ g.label = "Y" then 2 ^ g.target else 0)) := by
  have hf : ∀ p, flipBit I p = I ^^^ 2 ^ p := fun _ => rfl
  rw [h.op]
  rcases h.letter with hl | hl | hl <;> rw [hl]
  · rw [pauliL_X, opX_apply]; simp [gph, hl, hf]
  · rw [pauliL_Y, opY_apply]; simp [gph, hl, hf]
  · rw [pauliL_Z, opZ_apply]; simp [gph, hl]

theorem gph_conj (g : Gate) (I : ℕ) (h : IsXYZ g.label) : (starRingEnd ℂ) (gph g I) = (if g.label = "Y" then -1 else 1) * gph g I ∧ ‖gph g I‖ = 1 := by
  unfold gph
  rcases h with hl | hl | hl <;> rw [hl] <;> by_cases hb : I.testBit g.target <;> simp [hb]

theorem canon_pauliGate {s : Circuit} (hs : s.Canonical) : ∀ g ∈ s, PauliGate g := fun g hg => ⟨(hs.gates g hg).1, (hs.gates g hg).2⟩

theorem string_mono {s : Circuit} (hs : ∀ g ∈ s, PauliGate g) (ψ : St) (I : ℕ) : s.opLR ψ I = sph s I * ψ (I ^^^ xmask s) := by
  induction s generalizing ψ I with
  | nil => simp [Circuit.opLR, sph, xmask]
  | cons g s ih =>
    have e : Circuit.opLR (g :: s) = g.op * Circuit.opLR s := by simp [Circuit.opLR]
    rw [e, Module.End.mul_apply, gate_mono (hs g (by simp)), ih (fun g hg => hs g (by simp [hg]))]
    simp only [sph, xmask, List.foldr_cons, Nat.xor_assoc, mul_assoc]

theorem sph_conj {s : Circuit} (hs : ∀ g ∈ s, PauliGate g) (I : ℕ) : (starRingEnd ℂ) (sph s I) = ysign s * sph s I ∧ ‖sph s I‖ = 1 := by
  induction s generalizing I with
  | nil => simp [sph, ysign]
  | cons g s ih =>
    obtain ⟨h1, h2⟩ := gph_conj g I (hs g (by simp)).letter
    obtain ⟨h3, h4⟩ := ih (fun g hg => hs g (by simp [hg])) (I ^^^ (if g.label = "X" ∨ g.label = "Y" then 2 ^ g.target else 0))
    refine ⟨?_, by simp [sph, h2, h4]⟩
    simp only [sph, map_mul, h1, h3, ysign, List.foldr_cons]
    ring

/-- a Pauli string is Hermitian -/
theorem sph_flip {s : Circuit} (hs : s.Canonical) (I : ℕ) : sph s (I ^^^ xmask s) = (starRingEnd ℂ) (sph s I) := by
  have h1 : s.opLR (s.opLR (Pi.single I 1)) I = 1 := by
    have := congrFun (congrFun (congrArg DFunLike.coe (canon_sq hs)) (Pi.single I 1)) I
    simpa using this
  have hg := canon_pauliGate hs
  rw [string_mono hg, string_mono hg, Nat.xor_assoc, Nat.xor_self, Nat.xor_zero, Pi.single_eq_same, mul_one] at h1
  have h2 := (sph_conj hg I).2
  have h3 : sph s I * (starRingEnd ℂ) (sph s I) = 1 := by rw [Complex.mul_conj, Complex.normSq_eq_norm_sq, h2]; simp
  have h4 : sph s I ≠ 0 := by intro h; rw [h] at h2; simp at h2
  exact mul_left_cancel₀ h4 (h1.trans h3.symm)

theorem opLR_entry {F : QubitOperator} (hF : ∀ t ∈ F, t.2.Canonical) (ψ : St) (I : ℕ) :
    F.opLR ψ I = (F.map fun t => t.1 * sph t.2 I * ψ (I ^^^ xmask t.2)).sum := by
  induction F with
  | nil => simp [QubitOperator.opLR]
  | cons t F ih =>
    have e : QubitOperator.opLR (t :: F) = t.1 • t.2.opLR + QubitOperator.opLR F := by simp [QubitOperator.opLR]
    rw [e, LinearMap.add_apply, Pi.add_apply, ih (fun t ht => hF t (by simp [ht])), List.map_cons, List.sum_cons, LinearMap.smul_apply,
      Pi.smul_apply, smul_eq_mul, string_mono (canon_pauliGate (hF t (by simp))), mul_assoc]

/-- changing the coefficients of a list of strings -/
def recoef (F : QubitOperator) (f : ℂ × Circuit → ℂ) : QubitOperator := F.map fun t => (f t, t.2)

theorem recoef_eq {F : QubitOperator} (hF : ∀ t ∈ F, t.2.Canonical) (hn : (F.map Prod.snd).Nodup) (f g : ℂ × Circuit → ℂ)
    (h : (recoef F f).opLR = (recoef F g).opLR) : ∀ t ∈ F, f t = g t := by
  have hc : ∀ f, ∀ t ∈ recoef F f, t.2.Canonical := by
    intro f t ht
    obtain ⟨u, hu, rfl⟩ := List.mem_map.1 ht
    exact hF u hu
  have hnd : ∀ f, ((recoef F f).map Prod.snd).Nodup := by
    intro f
    have : (recoef F f).map Prod.snd = F.map Prod.snd := by simp [recoef, Function.comp_def]
    rwa [this]
  intro t ht
  have h1 := coefN_determined (hc f) (hc g) h t.2
  have hm : ∀ f : ℂ × Circuit → ℂ, (f t, t.2) ∈ recoef F f := fun f => List.mem_map.2 ⟨t, ht, rfl⟩
  have h2 := coefN_mem (hnd f) (hm f)
  have h3 := coefN_mem (hnd g) (hm g)
  simp only at h2 h3
  rw [← h2, ← h3, h1]

theorem recoef_entry {F : QubitOperator} (hF : ∀ t ∈ F, t.2.Canonical) (f : ℂ × Circuit → ℂ) (ψ : St) (I : ℕ) :
    (recoef F f).opLR ψ I = (F.map fun t => f t * sph t.2 I * ψ (I ^^^ xmask t.2)).sum := by
  rw [opLR_entry (F := recoef F f) (by
    intro t ht
    obtain ⟨u, hu, rfl⟩ := List.mem_map.1 ht
    exact hF u hu), recoef, List.map_map]
  rfl

theorem list_sum_conj (l : List ℂ) : (starRingEnd ℂ) l.sum = (l.map (starRingEnd ℂ)).sum := map_list_sum _ l

/-- the strings of a real antisymmetric operator: imaginary coefficients, all with the same flips, all with an odd number of Y -/
theorem skew_strings {m : ℕ} {F : QubitOperator} (hF : ∀ t ∈ F, t.2.Canonical) (hn : (F.map Prod.snd).Nodup) (h : RealSkew m F.opLR) :
    ∀ t ∈ F, t.1 ≠ 0 → t.1.re = 0 ∧ xmask t.2 = m ∧ ysign t.2 = -1 := by
  classical
  obtain ⟨k, hk, hanti⟩ := h
  have self : recoef F Prod.fst = F := by simp [recoef]
  -- masks
  have hmask : ∀ t ∈ F, t.1 = if xmask t.2 = m then t.1 else 0 := by
    refine recoef_eq hF hn Prod.fst (fun t => if xmask t.2 = m then t.1 else 0) ?_
    rw [self]
    refine Op.ext' fun ψ I => ?_
    rw [hk, recoef_entry hF]
    have h1 := hk (Pi.single (I ^^^ m) (ψ (I ^^^ m))) I
    rw [opLR_entry hF, Pi.single_eq_same] at h1
    rw [← h1]
    congr 1
    refine List.map_congr_left fun t _ => ?_
    by_cases e : xmask t.2 = m
    · simp [e]
    · have : I ^^^ xmask t.2 ≠ I ^^^ m := fun h => e (Nat.xor_right_injective h)
      rw [if_neg e, Pi.single_eq_of_ne this]; simp
  have hm : ∀ t ∈ F, t.1 ≠ 0 → xmask t.2 = m := by
    intro t ht h0
    by_contra e
    have := hmask t ht
    rw [if_neg e] at this
    exact h0 this
  -- the sum of the phases is the matrix
  have hsum : ∀ I, (F.map fun t => t.1 * sph t.2 I).sum = k I := by
    intro I
    have h1 := hk (fun _ => 1) I
    rw [opLR_entry hF] at h1
    simpa using h1
  have hconj : ∀ I, (F.map fun t => t.1 * (starRingEnd ℂ) (sph t.2 I)).sum = -k I := by
    intro I
    rw [← Complex.ofReal_neg, ← hanti, ← hsum]
    congr 1
    refine List.map_congr_left fun t ht => ?_
    by_cases h0 : t.1 = 0
    · simp [h0]
    · rw [← hm t ht h0, sph_flip (hF t ht)]
  have hconj2 : ∀ I, (F.map fun t => (starRingEnd ℂ) t.1 * sph t.2 I).sum = -k I := by
    intro I
    have := congrArg (starRingEnd ℂ) (hconj I)
    rw [list_sum_conj, List.map_map] at this
    simpa [Function.comp_def] using this
  have fin : ∀ f : ℂ × Circuit → ℂ, (∀ t ∈ F, t.1 = 0 → f t = 0) → (∀ I, (F.map fun t => f t * sph t.2 I).sum = -k I) → ∀ t ∈ F, f t = -t.1 := by
    intro f hf0 hf
    refine recoef_eq hF hn f (fun t => -t.1) ?_
    refine Op.ext' fun ψ I => ?_
    rw [recoef_entry hF, recoef_entry hF]
    have key : ∀ g : ℂ × Circuit → ℂ, (∀ t ∈ F, t.1 = 0 → g t = 0) →
        (F.map fun t => g t * sph t.2 I * ψ (I ^^^ xmask t.2)).sum = (F.map fun t => g t * sph t.2 I).sum * ψ (I ^^^ m) := by
      intro g hg
      rw [← List.sum_map_mul_right]
      congr 1
      refine List.map_congr_left fun t ht => ?_
      by_cases h0 : t.1 = 0
      · simp [hg t ht h0]
      · rw [hm t ht h0]
    rw [key f hf0, key (fun t => -t.1) (fun t _ h0 => by simp [h0]), hf I]
    congr 1
    rw [← hsum I]
    simp only [neg_mul]
    rw [List.sum_neg, List.map_map]
    rfl
  intro t ht h0
  have c1 := fin (fun t => (starRingEnd ℂ) t.1) (fun t _ h => by simp [h]) hconj2 t ht
  have c2 := fin (fun t => t.1 * ysign t.2) (fun t _ h => by simp [h]) (by
    intro I
    rw [← hconj I]
    congr 1
    refine List.map_congr_left fun t ht => ?_
    rw [(sph_conj (canon_pauliGate (hF t ht)) I).1]; ring) t ht
  refine ⟨?_, hm t ht h0, ?_⟩
  · have := congrArg Complex.re c1
    simp at this; linarith
  · have : t.1 * ysign t.2 = t.1 * (-1) := by rw [mul_neg_one]; exact c2
    exact mul_left_cancel₀ h0 this

/-- such strings commute and none is the identity -/
theorem odd_commute {m : ℕ} {s t : Circuit} (hs : s.Canonical) (ht : t.Canonical) (ms : xmask s = m) (mt : xmask t = m)
    (ys : ysign s = -1) (yt : ysign t = -1) : Commute s.opLR t.opLR := by
  have gs := canon_pauliGate hs
  have gt := canon_pauliGate ht
  refine Op.ext' fun ψ I => ?_
  rw [Module.End.mul_apply, Module.End.mul_apply, string_mono gs, string_mono gt, string_mono gt, string_mono gs]
  have e1 : sph s (I ^^^ xmask t) = -sph s I := by rw [mt, ← ms, sph_flip hs, (sph_conj gs I).1, ys, neg_one_mul]
  have e2 : sph t (I ^^^ xmask s) = -sph t I := by rw [ms, ← mt, sph_flip ht, (sph_conj gt I).1, yt, neg_one_mul]
  rw [e1, e2, ms, mt]
  ring

theorem odd_ne_nil {s : Circuit} (ys : ysign s = -1) : s ≠ [] := by
  rintro rfl
  norm_num [ysign] at ys

/-! ### the antisymmetric operators built from ladder operators -/

def lmask (l : List (Bool × ℕ)) : ℕ := l.foldr (fun x m => 2 ^ x.2 ^^^ m) 0

theorem lflip_xor (l : List (Bool × ℕ)) (I : ℕ) : lflip l I = I ^^^ lmask l := by
  induction l generalizing I with
  | nil => simp [lflip, lmask]
  | cons x l ih => simp only [lflip, ih, lmask, List.foldr_cons, flipBit, Nat.xor_assoc]

theorem fsign_real (I p : ℕ) : ∃ r : ℝ, fsign I p = r := by
  exact ⟨(-1) ^ nBelow I p, by simp [fsign]⟩

theorem lsign_real (l : List (Bool × ℕ)) (I : ℕ) : ∃ r : ℝ, lsign l I = r := by
  induction l generalizing I with
  | nil => exact ⟨1, by simp [lsign]⟩
  | cons x l ih =>
    obtain ⟨a, ha⟩ := fsign_real I x.2
    obtain ⟨b, hb⟩ := ih (flipBit I x.2)
    exact ⟨a * b, by simp [lsign, ha, hb]⟩

theorem lmask_adj (l : List (Bool × ℕ)) : lmask (ladj l) = lmask l := by
  have h := (l_adj l 0).2.2
  rw [lflip_xor, lflip_xor, Nat.zero_xor] at h
  have : lmask (ladj l) ^^^ lmask l ^^^ lmask l = 0 ^^^ lmask l := by rw [h]
  rwa [Nat.xor_assoc, Nat.xor_self, Nat.xor_zero, Nat.zero_xor] at this

/-- `t - t†` is real antisymmetric, for every string `t` of ladder operators -/
theorem kappa_skew (q : Bool) (cre ann : List ℕ) : RealSkew (lmask (caList cre ann)) (kappa q cre ann) := by
  classical
  set l := caList cre ann with hl
  have hadj : ∀ I, lflip (ladj l) I = I ^^^ lmask l := fun I => by rw [lflip_xor, lmask_adj]
  have hxx : ∀ I, I ^^^ lmask l ^^^ lmask l = I := fun I => by rw [Nat.xor_assoc, Nat.xor_self, Nat.xor_zero]
  choose sg hsg using lsign_real l
  let a : ℕ → ℝ := fun I => if lvalid l I then (if q then 1 else sg I) else 0
  refine ⟨fun I => a I - a (I ^^^ lmask l), fun ψ I => ?_, fun I => ?_⟩
  · have e1 := (l_adj l I).1
    have e2 := (l_adj l I).2.1
    rw [hadj] at e1 e2
    cases q
    · simp only [kappa, Bool.false_eq_true, if_false, LinearMap.sub_apply, Pi.sub_apply]
      rw [fermiString_eq, fermiString_eq, ← ladj_caList, ← hl, ladders_apply, ladders_apply, hadj, e1, e2, lflip_xor, hsg, hsg]
      simp only [a, Bool.false_eq_true, if_false]
      split_ifs <;> push_cast <;> ring
    · simp only [kappa, if_true, LinearMap.sub_apply, Pi.sub_apply]
      rw [qubitString_eq, qubitString_eq, ← ladj_caList, ← hl, qladders_apply, qladders_apply, hadj, e1, lflip_xor]
      simp only [a, if_true]
      split_ifs <;> push_cast <;> ring
  · simp only [hxx]; ring

theorem RealSkew.smul {m : ℕ} {K : Op} (h : RealSkew m K) (r : ℝ) : RealSkew m ((r : ℂ) • K) := by
  obtain ⟨k, hk, ha⟩ := h
  refine ⟨fun I => r * k I, fun ψ I => ?_, fun I => by simp only [ha]; ring⟩
  rw [LinearMap.smul_apply, Pi.smul_apply, hk]; simp; ring

end QF
