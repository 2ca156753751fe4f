import Verif.Model.Compact
import Verif.Lemmas.QFT
import Mathlib.NumberTheory.Padics.PadicVal.Basic

/-! Gates of the compact excitation circuits, and the chain of rotations of `multi_qubit_controlled_Ry`. -/
namespace QF

def gCNOT (t c : ℕ) : Gate := ⟨"CNOT", t, c, matC 0 1 1 0, none⟩
def gaCNOT (t c : ℕ) : Gate := ⟨"aCNOT", t, c, matAC, none⟩
def gCZ (t c : ℕ) : Gate := ⟨"cZ", t, c, matC 1 0 0 (-1), none⟩
noncomputable def gRy (t : ℕ) (θ : ℝ) : Gate := ⟨"Ry", t, t, mat1 (Real.cos (0.5 * normalizeAngle θ (4 * Real.pi)) : ℝ) (-((Real.sin (0.5 * normalizeAngle θ (4 * Real.pi)) : ℝ) : ℂ)) (Real.sin (0.5 * normalizeAngle θ (4 * Real.pi)) : ℝ) (Real.cos (0.5 * normalizeAngle θ (4 * Real.pi)) : ℝ), some (normalizeAngle θ (4 * Real.pi), true)⟩

theorem make_CNOT {t c : ℕ} (h : t ≠ c) (θ : ℝ) : makeGate "CNOT" t c θ = .ok (gCNOT t c) := makeGate_of_made (.CNOT t c θ h)
theorem make_aCNOT {t c : ℕ} (h : t ≠ c) (θ : ℝ) : makeGate "aCNOT" t c θ = .ok (gaCNOT t c) := makeGate_of_made (.aCNOT t c θ h)
theorem make_CZ {t c : ℕ} (h : t ≠ c) (θ : ℝ) : makeGate "cZ" t c θ = .ok (gCZ t c) := makeGate_of_made (.cZ t c θ h)
theorem make_Ry (t : ℕ) (θ : ℝ) : makeGate "Ry" t t θ = .ok (gRy t θ) := makeGate_of_made (.Ry t θ)

theorem py_CNOT {t c : ℕ} (h : t ≠ c) : pyGate2 "CNOT" t c = .ok (gCNOT t c) := by
  simp [pyGate2, make_CNOT h]
theorem py_aCNOT {t c : ℕ} (h : t ≠ c) : pyGate2 "aCNOT" t c = .ok (gaCNOT t c) := by
  simp [pyGate2, make_aCNOT h]
theorem py_CZ {t c : ℕ} (h : t ≠ c) : pyGate2 "cZ" t c = .ok (gCZ t c) := by
  simp [pyGate2, make_CZ h]
theorem py_Ry (t : ℕ) (x : ℝ) : pyGate3 "Ry" t t (x : ℂ) = .ok (gRy t x) := by
  rw [py3_real, make_Ry]

theorem op_gCNOT {t c : ℕ} (h : t ≠ c) : (gCNOT t c).op = ctrlOp c true (opX t) := by
  have := (makeGate_spec (make_CNOT h 0)).2.2.2
  simp [stdGate, h] at this
  rw [← this]
theorem op_gaCNOT {t c : ℕ} (h : t ≠ c) : (gaCNOT t c).op = ctrlOp c false (opX t) := by
  have := (makeGate_spec (make_aCNOT h 0)).2.2.2
  simp [stdGate, h] at this
  rw [← this]
theorem op_gCZ {t c : ℕ} (h : t ≠ c) : (gCZ t c).op = ctrlOp c true (opZ t) := by
  have := (makeGate_spec (make_CZ h 0)).2.2.2
  simp [stdGate, h] at this
  rw [← this]
theorem op_gRy (t : ℕ) (θ : ℝ) : (gRy t θ).op = rotOp (opY t) θ := by
  have := (makeGate_spec (make_Ry t θ)).2.2.2
  simp [stdGate] at this
  rw [← this]

/-- one gate of the chain: a rotation of the target, or a controlled flip of it -/
inductive Ins
  | ry (γ : ℝ)
  | cx (c : ℕ) (pol : Bool)

noncomputable def Ins.gate (t : ℕ) : Ins → Gate
  | .ry γ => gRy t γ
  | .cx c true => gCNOT t c
  | .cx c false => gaCNOT t c

/-- effect on (angle, flip) for the basis states whose control bits are those of `I` -/
noncomputable def Ins.run (I : ℕ) (x : ℝ × Bool) : Ins → ℝ × Bool
  | .ry γ => (x.1 + γ, x.2)
  | .cx c pol => if I.testBit c = pol then (-x.1, !x.2) else x

/-- the rotation by `x.1` after a flip if `x.2` -/
noncomputable def dAct (t : ℕ) (x : ℝ × Bool) (ψ : St) (I : ℕ) : ℂ :=
  Real.cos (x.1 / 2) * (if x.2 then ψ (flipBit I t) else ψ I) +
    (if I.testBit t then (Real.sin (x.1 / 2) : ℂ) else -(Real.sin (x.1 / 2) : ℂ)) * (if x.2 then ψ I else ψ (flipBit I t))

theorem ry_apply (t : ℕ) (γ : ℝ) (φ : St) (I : ℕ) : (gRy t γ).op φ I =
    Real.cos (γ / 2) * φ I + (if I.testBit t then (Real.sin (γ / 2) : ℂ) else -(Real.sin (γ / 2) : ℂ)) * φ (flipBit I t) := by
  rw [op_gRy]
  simp only [rotOp, LinearMap.sub_apply, LinearMap.smul_apply, Pi.sub_apply, Pi.smul_apply, smul_eq_mul, opY_apply,
    Module.End.one_apply]
  split_ifs
  · linear_combination (-(Real.sin (γ / 2) : ℂ) * φ (flipBit I t)) * Complex.I_mul_I
  · linear_combination ((Real.sin (γ / 2) : ℂ) * φ (flipBit I t)) * Complex.I_mul_I

theorem cxy_apply {t c : ℕ} (h : t ≠ c) (pol : Bool) (φ : St) (I : ℕ) : (Ins.gate t (.cx c pol)).op φ I =
    if I.testBit c = pol then φ (flipBit I t) else φ I := by
  cases pol
  · rw [Ins.gate, op_gaCNOT h, ctrlOp_apply, opX_apply]
  · rw [Ins.gate, op_gCNOT h, ctrlOp_apply, opX_apply]

/-- controls of the chain differ from its target -/
def Ins.Ok (t : ℕ) : Ins → Prop
  | .ry _ => True
  | .cx c _ => t ≠ c

theorem Ins.run_flip {t : ℕ} {i : Ins} (h : i.Ok t) (I : ℕ) (x : ℝ × Bool) : i.run (flipBit I t) x = i.run I x := by
  cases i with
  | ry γ => rfl
  | cx c pol =>
    have : c ≠ t := fun e => h e.symm
    simp [Ins.run, testBit_flipBit, this]

theorem runs_flip {t : ℕ} : ∀ (l : List Ins), (∀ i ∈ l, i.Ok t) → ∀ (I : ℕ) (x : ℝ × Bool),
    l.foldl (Ins.run (flipBit I t)) x = l.foldl (Ins.run I) x
  | [], _, _, _ => rfl
  | i :: l, h, I, x => by
    rw [List.foldl_cons, List.foldl_cons, Ins.run_flip (h i (by simp)), runs_flip l (fun j hj => h j (by simp [hj]))]

theorem chain_apply {t : ℕ} (l : List Ins) (hl : ∀ i ∈ l, i.Ok t) (ψ : St) : ∀ I : ℕ,
    Circuit.op (l.map (Ins.gate t)) ψ I = dAct t (l.foldl (Ins.run I) (0, false)) ψ I := by
  induction l using List.reverseRecOn with
  | nil => intro I; simp [dAct]
  | append_singleton l i ih =>
    intro I
    have ih := ih (fun j hj => hl j (by simp [hj]))
    rw [List.map_append, Circuit.op_append, Module.End.mul_apply, List.foldl_append]
    simp only [List.map_cons, List.map_nil, Circuit.op_cons, Circuit.op_nil, one_mul, List.foldl_cons, List.foldl_nil]
    have hf := runs_flip (t := t) l (fun j hj => hl j (by simp [hj])) I (0, false)
    have hi := hl i (by simp)
    cases i with
    | ry γ =>
      rw [Ins.gate, ry_apply, ih, ih, hf]
      generalize l.foldl (Ins.run I) (0, false) = x
      obtain ⟨α, β⟩ := x
      simp only [dAct, Ins.run, flipBit_flipBit, testBit_flipBit, if_true]
      have e1 : Real.cos ((α + γ) / 2) = Real.cos (α / 2) * Real.cos (γ / 2) - Real.sin (α / 2) * Real.sin (γ / 2) := by
        rw [add_div, Real.cos_add]
      have e2 : Real.sin ((α + γ) / 2) = Real.sin (α / 2) * Real.cos (γ / 2) + Real.cos (α / 2) * Real.sin (γ / 2) := by
        rw [add_div, Real.sin_add]
      rw [e1, e2]
      push_cast
      cases I.testBit t <;> cases β <;> simp <;> ring
    | cx c pol =>
      rw [cxy_apply hi, ih, ih, hf]
      generalize l.foldl (Ins.run I) (0, false) = x
      obtain ⟨α, β⟩ := x
      simp only [Ins.run]
      split_ifs
      · simp only [dAct, flipBit_flipBit, testBit_flipBit, if_true, neg_div, Real.cos_neg, Real.sin_neg]
        cases I.testBit t <;> cases β <;> simp
      · rfl

/-! ### The order of the controls -/

/-- index of the control after the `x`-th rotation (counted from 1) -/
def ctlIdx (m x : ℕ) : ℕ := m - 1 - padicValNat 2 x

theorem two_pow_dvd {a x : ℕ} (hx : x ≠ 0) : 2 ^ a ∣ x ↔ a ≤ padicValNat 2 x :=
  padicValNat_dvd_iff_le hx

theorem val_odd_mul (k n : ℕ) : padicValNat 2 ((2 * k + 1) * 2 ^ n) = n := by
  have h0 : padicValNat 2 (2 * k + 1) = 0 := padicValNat.eq_zero_of_not_dvd (by omega)
  rw [padicValNat.mul (by omega) (by positivity), padicValNat.prime_pow, h0, zero_add]

theorem ctlIdx_odd {m n : ℕ} (k : ℕ) : ctlIdx m ((2 * k + 1) * 2 ^ n) = m - 1 - n := by
  rw [ctlIdx, val_odd_mul]

theorem ctlIdx_last (m : ℕ) : ctlIdx m (2 ^ m) = 0 := by
  rw [ctlIdx, padicValNat.prime_pow]; omega

theorem quot_two_pow {m j : ℕ} (h : j < m) : 2 ^ m / 2 ^ (j + 1) = 2 ^ (m - 1 - j) := by
  rw [Nat.pow_div (by omega) (by norm_num)]; congr 1; omega

theorem ctl_test {m x j : ℕ} (hx : x ≠ 0) (h : j < m) : x % (2 ^ m / 2 ^ (j + 1)) = 0 ↔ ctlIdx m x ≤ j := by
  rw [quot_two_pow h, ← Nat.dvd_iff_mod_eq_zero, two_pow_dvd hx, ctlIdx]; omega

theorem ctlIdx_lt {m x : ℕ} (h : 0 < m) : ctlIdx m x < m := by unfold ctlIdx; omega

theorem find_control (controls : List ℕ) (h : 0 < controls.length) (i : ℕ) :
    controls.zipIdx.find? (fun x => (i + 1) % (2 ^ controls.length / 2 ^ (x.2 + 1)) = 0) =
      some (controls[ctlIdx controls.length (i + 1)]'(ctlIdx_lt h), ctlIdx controls.length (i + 1)) := by
  rw [List.find?_eq_some_iff_getElem]
  refine ⟨?_, ctlIdx controls.length (i + 1), by rw [List.length_zipIdx]; exact ctlIdx_lt h, ?_, ?_⟩
  · simpa using (ctl_test (by omega) (ctlIdx_lt h)).2 (le_refl _)
  · simp
  · intro j hj
    have hjm : j < controls.length := lt_trans hj (ctlIdx_lt h)
    simpa using fun e => absurd ((ctl_test (x := i + 1) (by omega) hjm).1 e) (by omega)

theorem pol_test {m i : ℕ} (hm : 0 < m) : ((i + 1) % (2 ^ m / 2) = 0 ∨ i = 2 ^ m - 1) ↔ ctlIdx m (i + 1) = 0 := by
  have h1 : (i + 1) % (2 ^ m / 2) = 0 ↔ ctlIdx m (i + 1) ≤ 0 := by
    have := ctl_test (m := m) (x := i + 1) (j := 0) (by omega) hm
    simpa using this
  rw [h1]
  constructor
  · rintro (h | h)
    · omega
    · have : i + 1 = 2 ^ m := by have := Nat.two_pow_pos m; omega
      rw [this, ctlIdx_last]
  · intro h; left; omega

/-! ### Evaluation of the chain -/

/-- polarity of the control number `j` -/
def ctlPol (gsd : Bool) (j : ℕ) : Bool := decide (j = 0) || gsd

/-- conditional flip -/
def cxF (f : Bool) (x : ℝ × Bool) : ℝ × Bool := if f then (-x.1, !x.2) else x

/-- one turn of the loop, for the flags `F` of the controls -/
def turn (F : ℕ → Bool) (m : ℕ) (e : ℝ) (x : ℝ × Bool) (i : ℕ) : ℝ × Bool :=
  cxF (F (ctlIdx m (i + 1))) (x.1 + (if i % 2 = 0 then e else -e), x.2)

open Classical in
/-- the effect of `2^n` turns without the last flip, `n ≥ 1` -/
noncomputable def blk (F : ℕ → Bool) (m : ℕ) (e : ℝ) (n : ℕ) (x : ℝ × Bool) : ℝ × Bool :=
  ((if ∀ j, m - n ≤ j → j < m → F j = true then -(2 ^ n * e) else 0) + (if F (m - n) then -x.1 else x.1), xor x.2 (F (m - n)))

theorem turns_split (F : ℕ → Bool) (m : ℕ) (e : ℝ) (n k : ℕ) (x : ℝ × Bool) :
    (List.range' (k * 2 ^ (n + 1)) (2 ^ (n + 1))).foldl (turn F m e) x =
    (List.range' ((2 * k + 1) * 2 ^ n) (2 ^ n)).foldl (turn F m e) ((List.range' (2 * k * 2 ^ n) (2 ^ n)).foldl (turn F m e) x) := by
  rw [← List.foldl_append]
  congr 1
  have e1 : k * 2 ^ (n + 1) = 2 * k * 2 ^ n := by ring
  have e2 : (2 * k + 1) * 2 ^ n = 2 * k * 2 ^ n + 1 * 2 ^ n := by ring
  have e3 : 2 ^ (n + 1) = 2 ^ n + 2 ^ n := by ring
  rw [e1, e2, e3, one_mul]
  have := List.range'_append (s := 2 * k * 2 ^ n) (m := 2 ^ n) (n := 2 ^ n) (step := 1)
  rw [one_mul] at this
  exact this.symm

theorem all_succ {m n : ℕ} (F : ℕ → Bool) (hn : n + 1 ≤ m) : (∀ j, m - (n + 1) ≤ j → j < m → F j = true) ↔
    F (m - (n + 1)) = true ∧ ∀ j, m - n ≤ j → j < m → F j = true := by
  constructor
  · intro h; exact ⟨h _ (le_refl _) (by omega), fun j h1 h2 => h j (by omega) h2⟩
  · rintro ⟨h1, h2⟩ j hj hj'
    by_cases e : j = m - (n + 1)
    · rw [e]; exact h1
    · exact h2 j (by omega) hj'

theorem turns_block (F : ℕ → Bool) (m : ℕ) (e : ℝ) : ∀ (n : ℕ), n + 1 ≤ m → ∀ (k : ℕ) (x : ℝ × Bool),
    (List.range' (k * 2 ^ (n + 1)) (2 ^ (n + 1))).foldl (turn F m e) x =
      cxF (F (ctlIdx m ((k + 1) * 2 ^ (n + 1)))) (blk F m e (n + 1) x)
  | 0, hn, k, x => by
    have h1 : ctlIdx m (2 * k + 1) = m - 1 := by simpa using ctlIdx_odd (m := m) (n := 0) k
    have h2 : 2 * k + 1 + 1 = (k + 1) * 2 ^ (0 + 1) := by ring
    have hall : (∀ j, m - (0 + 1) ≤ j → j < m → F j = true) ↔ F (m - 1) = true := by
      constructor
      · intro h; exact h _ (le_refl _) (by omega)
      · intro h j hj hj'
        have : j = m - 1 := by omega
        rw [this]; exact h
    have e0 : List.range' (k * 2 ^ (0 + 1)) (2 ^ (0 + 1)) = [2 * k, 2 * k + 1] := by
      have : k * 2 ^ (0 + 1) = 2 * k := by ring
      rw [this]; rfl
    rw [e0]
    simp only [List.foldl_cons, List.foldl_nil]
    rw [turn, h2]
    congr 1
    rw [turn, h1, blk, if_congr hall rfl rfl]
    have p1 : 2 * k % 2 = 0 := by omega
    have p2 : ¬ (2 * k + 1) % 2 = 0 := by omega
    obtain ⟨α, β⟩ := x
    simp only [p1, p2, if_true, if_false]
    cases hF : F (m - 1) <;> simp [cxF]
    ring
  | n + 1, hn, k, x => by
    rw [turns_split, turns_block F m e n (by omega), turns_block F m e n (by omega)]
    have h1 : ctlIdx m ((2 * k + 1) * 2 ^ (n + 1)) = m - (n + 1 + 1) := by rw [ctlIdx_odd]; omega
    have h2 : (2 * k + 1 + 1) * 2 ^ (n + 1) = (k + 1) * 2 ^ (n + 1 + 1) := by ring
    rw [h1, h2]
    congr 1
    have hall := all_succ (n := n + 1) F hn
    obtain ⟨α, β⟩ := x
    unfold blk
    rw [if_congr hall rfl rfl]
    have hb : (∀ j, m - (n + 1) ≤ j → j < m → F j = true) → F (m - (n + 1)) = true := fun h => h _ (le_refl _) (by omega)
    by_cases hA : ∀ j, m - (n + 1) ≤ j → j < m → F j = true
    · have hb := hb hA
      rw [if_congr (and_iff_left hA) rfl rfl, if_pos hA]
      cases hf : F (m - (n + 1 + 1)) <;> simp [cxF, hb]
      ring
    · rw [if_neg hA, if_neg (fun h : F (m - (n + 1 + 1)) = true ∧ ∀ j, m - (n + 1) ≤ j → j < m → F j = true => hA h.2)]
      cases hf : F (m - (n + 1 + 1)) <;> cases hb : F (m - (n + 1)) <;> simp [cxF]

/-- the whole loop: a rotation by `2^m e` when all flags are set, nothing otherwise -/
theorem turns_all (F : ℕ → Bool) {m : ℕ} (hm : 0 < m) (e : ℝ) : (List.range (2 ^ m)).foldl (turn F m e) (0, false) =
    (if ∀ j < m, F j = true then 2 ^ m * e else 0, false) := by
  classical
  obtain ⟨n, rfl⟩ : ∃ n, m = n + 1 := ⟨m - 1, by omega⟩
  have := turns_block F (n + 1) e n (le_refl _) 0 (0, false)
  simp only [zero_mul, zero_add, one_mul, ctlIdx_last] at this
  rw [List.range_eq_range', this]
  unfold blk
  have hall : (∀ j, (n + 1) - (n + 1) ≤ j → j < n + 1 → F j = true) ↔ ∀ j < n + 1, F j = true := by
    constructor
    · intro h j hj; exact h j (by omega) hj
    · intro h j _ hj; exact h j hj
  rw [if_congr hall rfl rfl, Nat.sub_self]
  have hb : (∀ j < n + 1, F j = true) → F 0 = true := fun h => h 0 (by omega)
  by_cases hA : ∀ j < n + 1, F j = true
  · rw [if_pos hA, if_pos hA]; simp [cxF, hb hA]
  · rw [if_neg hA, if_neg hA]; cases hF : F 0 <;> simp [cxF]

/-! ### The circuit -/

theorem foldl_flatMap' {α β γ : Type} (f : γ → β → γ) (g : α → List β) (l : List α) (x : γ) :
    (l.flatMap g).foldl f x = l.foldl (fun x a => (g a).foldl f x) x := by
  induction l generalizing x with
  | nil => rfl
  | cons a l ih => rw [List.flatMap_cons, List.foldl_append, List.foldl_cons, ih]

theorem foldlM_addGates {α : Type} (f : Circuit → α → Except Exc Circuit) (g : α → Circuit) (l : List α)
    (h : ∀ x ∈ l, ∀ c, f c x = .ok (c ++ g x)) (c : Circuit) : l.foldlM f c = .ok (c ++ l.flatMap g) := by
  induction l generalizing c with
  | nil => simp; rfl
  | cons x l ih =>
    rw [List.foldlM_cons, h x (by simp), except_ok_bind, ih (fun y hy => h y (by simp [hy])), List.flatMap_cons, List.append_assoc]

/-- the overall sign of the rotation -/
def exSign (rank : ℕ) (gsdSign : ℤ) (q : Bool) : ℤ := rySign rank gsdSign q 0

theorem rySign_eq (rank : ℕ) (gs : ℤ) (q : Bool) (i : ℕ) : rySign rank gs q i = if i % 2 = 0 then exSign rank gs q else -exSign rank gs q := by
  have h : i % 2 = 0 ∨ i % 2 = 1 := by omega
  unfold exSign rySign
  rcases h with h | h <;> cases q <;> simp [h]
  split_ifs <;> simp

theorem ryControl_ok {t : ℕ} {controls : List ℕ} (hc : t ∉ controls) (hm : 0 < controls.length) (gsd : Bool) (i : ℕ) (c : Circuit) :
    ryControl t controls gsd i c = .ok (c ++ [Ins.gate t (.cx (controls[ctlIdx controls.length (i + 1)]'(ctlIdx_lt hm))
      (ctlPol gsd (ctlIdx controls.length (i + 1))))]) := by
  unfold ryControl
  simp only
  rw [find_control controls hm]
  simp only
  have hne : t ≠ controls[ctlIdx controls.length (i + 1)]'(ctlIdx_lt hm) := fun e => hc (e ▸ List.getElem_mem _)
  have hp := pol_test (m := controls.length) (i := i) hm
  by_cases h0 : ctlIdx controls.length (i + 1) = 0
  · rw [if_pos (hp.2 h0), py_CNOT hne]
    simp [ctlPol, h0, Ins.gate, Circuit.addGate, except_ok_bind, pure, Except.pure]
  · rw [if_neg (fun h => h0 (hp.1 h))]
    cases gsd
    · rw [if_neg (by simp), py_aCNOT hne]
      simp [ctlPol, h0, Ins.gate, Circuit.addGate, except_ok_bind, pure, Except.pure]
    · rw [if_pos rfl, py_CNOT hne]
      simp [ctlPol, h0, Ins.gate, Circuit.addGate, except_ok_bind, pure, Except.pure]

/-- qubits of the gates of a circuit -/
def Circuit.On (c : Circuit) (s : List ℕ) : Prop := ∀ g ∈ c, ApiGate g ∧ g.target ∈ s ∧ g.control ∈ s

theorem Circuit.On.append {c d : Circuit} {s : List ℕ} (h : c.On s) (h' : d.On s) : Circuit.On (c ++ d) s := by
  intro g hg
  rcases List.mem_append.1 hg with hg | hg
  exacts [h g hg, h' g hg]

theorem Circuit.On.mono {c : Circuit} {s s' : List ℕ} (h : c.On s) (hs : s ⊆ s') : c.On s' :=
  fun g hg => ⟨(h g hg).1, hs (h g hg).2.1, hs (h g hg).2.2⟩

theorem Circuit.On.adjoint {c : Circuit} {s : List ℕ} (h : c.On s) : c.adjoint.On s := by
  intro g hg
  unfold Circuit.adjoint at hg
  obtain ⟨x, hx, rfl⟩ := List.mem_map.1 (List.mem_reverse.1 hg)
  rw [(adjoint_target x).1, (adjoint_target x).2]
  exact ⟨.adj (h x hx).1, (h x hx).2.1, (h x hx).2.2⟩

theorem on_CNOT {t c : ℕ} {s : List ℕ} (h : t ≠ c) (ht : t ∈ s) (hc : c ∈ s) : Circuit.On [gCNOT t c] s := by
  intro g hg; rw [List.mem_singleton.1 hg]; exact ⟨.make (make_CNOT h 0), ht, hc⟩

theorem multiRy_ok (θ : ℝ) {t : ℕ} {cc ca gs : List ℕ} (ht : t ∉ ca ++ cc.reverse ++ gs) (hm : 0 < (ca ++ cc.reverse ++ gs).length)
    (gsign : ℤ) (q : Bool) : ∃ C, multiQubitControlledRy θ t cc ca gs gsign q = .ok C ∧ C.On (t :: (ca ++ cc.reverse ++ gs)) ∧
      ∀ (ψ : St) (I : ℕ), C.op ψ I =
        if ∀ j (hj : j < (ca ++ cc.reverse ++ gs).length), I.testBit (ca ++ cc.reverse ++ gs)[j] = ctlPol (gs ≠ []) j then
          (Real.cos (exSign ca.length gsign q * θ) : ℂ) * ψ I +
            (if I.testBit t then (Real.sin (exSign ca.length gsign q * θ) : ℂ) else -(Real.sin (exSign ca.length gsign q * θ) : ℂ)) * ψ (flipBit I t)
        else ψ I := by
  classical
  have hsgn := rySign_eq ca.length gsign q
  unfold multiQubitControlledRy
  generalize ca ++ cc.reverse ++ gs = controls at ht hm ⊢
  generalize rySign ca.length gsign q = sg at hsgn ⊢
  generalize exSign ca.length gsign q = s0 at hsgn ⊢
  generalize (decide (gs ≠ [])) = gsd
  simp only
  rw [if_neg (by omega)]
  let m := controls.length
  let δ : ℝ := θ / 2 ^ (m - 1)
  let step : ℕ → List Ins := fun i => [.ry ((sg i : ℝ) * δ), .cx (controls[ctlIdx m (i + 1)]'(ctlIdx_lt hm)) (ctlPol gsd (ctlIdx m (i + 1)))]
  have hok : ∀ i ∈ (List.range (2 ^ m)).flatMap step, i.Ok t := by
    intro x hx
    obtain ⟨i, _, hx⟩ := List.mem_flatMap.1 hx
    simp only [step, List.mem_cons, List.not_mem_nil, or_false] at hx
    rcases hx with rfl | rfl
    · trivial
    · exact fun e => ht (e ▸ List.getElem_mem _)
  refine ⟨((List.range (2 ^ m)).flatMap step).map (Ins.gate t), ?_, ?_, ?_⟩
  · rw [foldlM_addGates _ (fun i => (step i).map (Ins.gate t)) _ _ []]
    · rw [List.nil_append, List.map_flatMap]
    · intro i _ c
      have e : ((sg i : ℂ) * ((θ : ℂ) / (2 ^ (controls.length - 1) : ℕ))) = (((sg i : ℝ) * δ : ℝ) : ℂ) := by
        simp only [δ, m]; push_cast; ring
      rw [e, py_Ry, except_ok_bind, ryControl_ok ht hm]
      simp [step, Ins.gate, Circuit.addGate, m]
  · intro g hg
    obtain ⟨x, hx, rfl⟩ := List.mem_map.1 hg
    have hxo := hok x hx
    obtain ⟨i, _, hx⟩ := List.mem_flatMap.1 hx
    simp only [step, List.mem_cons, List.not_mem_nil, or_false] at hx
    rcases hx with rfl | rfl
    · exact ⟨.make (make_Ry t _), by simp [Ins.gate, gRy], by simp [Ins.gate, gRy]⟩
    · cases ctlPol gsd (ctlIdx m (i + 1))
      · exact ⟨.make (make_aCNOT hxo 0), by simp [Ins.gate, gaCNOT], by simp [Ins.gate, gaCNOT]⟩
      · exact ⟨.make (make_CNOT hxo 0), by simp [Ins.gate, gCNOT], by simp [Ins.gate, gCNOT]⟩
  · intro ψ I
    rw [chain_apply _ hok, foldl_flatMap']
    let F : ℕ → Bool := fun j => if h : j < m then decide (I.testBit controls[j] = ctlPol gsd j) else false
    have hturn : ∀ (x : ℝ × Bool) (i : ℕ), (step i).foldl (Ins.run I) x = turn F m ((s0 : ℝ) * δ) x i := by
      intro x i
      have hF : F (ctlIdx m (i + 1)) = decide (I.testBit (controls[ctlIdx m (i + 1)]'(ctlIdx_lt hm)) = ctlPol gsd (ctlIdx m (i + 1))) := by
        simp only [F]; rw [dif_pos (ctlIdx_lt hm)]
      simp only [step, List.foldl_cons, List.foldl_nil, turn, hF, cxF, Ins.run, decide_eq_true_eq]
      have e : (sg i : ℝ) * δ = if i % 2 = 0 then (s0 : ℝ) * δ else -((s0 : ℝ) * δ) := by
        rw [hsgn i]; split_ifs <;> push_cast <;> ring
      rw [e]
    have hrun : (List.range (2 ^ m)).foldl (fun x i => (step i).foldl (Ins.run I) x) (0, false) =
        (if ∀ j < m, F j = true then 2 ^ m * ((s0 : ℝ) * δ) else 0, false) := by
      simp only [hturn]
      exact turns_all F hm _
    rw [hrun]
    have hiff : (∀ j < m, F j = true) ↔ ∀ j (hj : j < controls.length), I.testBit controls[j] = ctlPol gsd j := by
      constructor
      · intro h j hj; have := h j hj; simp only [F] at this; rw [dif_pos hj] at this; exact of_decide_eq_true this
      · intro h j hj; simp only [F]; rw [dif_pos hj]; exact decide_eq_true (h j hj)
    have hang : 2 ^ m * ((s0 : ℝ) * δ) / 2 = s0 * θ := by
      obtain ⟨k, hk⟩ : ∃ k, m = k + 1 := ⟨m - 1, by have : 0 < m := hm; omega⟩
      simp only [δ]; rw [hk, Nat.add_sub_cancel, pow_succ]; field_simp
    by_cases hall : ∀ j < m, F j = true
    · rw [if_pos hall, if_pos (hiff.1 hall)]
      simp only [dAct, hang]; simp
    · rw [if_neg hall, if_neg (fun h => hall (hiff.2 h))]
      simp [dAct]

end QF
