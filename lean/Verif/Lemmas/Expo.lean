import Verif.Model.Expo
import Verif.Spec.Exp
import Verif.Lemmas.Rotate
import Verif.Lemmas.ApplyCircuit
import Mathlib.Analysis.SpecialFunctions.Exponential

namespace QF

/-! ### exponential of an involution -/

theorem Complex.hasSum_exp_series (z : ℂ) : HasSum (fun k : ℕ => ((k.factorial : ℂ))⁻¹ * z ^ k) (Complex.exp z) := by
  have := NormedSpace.expSeries_div_hasSum_exp (𝔸 := ℂ) z
  rw [← Complex.exp_eq_exp_ℂ] at this
  simpa [div_eq_inv_mul] using this

theorem smul_pow_invol {P : Op} (hP : P * P = 1) (z : ℂ) (ψ : St) (I : ℕ) (k : ℕ) :
    ((z • P) ^ k) ψ I = z ^ k * ((ψ I + P ψ I) / 2) + (-z) ^ k * ((ψ I - P ψ I) / 2) := by
  have hPP : ∀ φ : St, P (P φ) = φ := fun φ => congrFun (congrArg DFunLike.coe hP) φ
  induction k generalizing ψ with
  | zero => simp; ring
  | succ k ih =>
    rw [pow_succ, Module.End.mul_apply, LinearMap.smul_apply, map_smul, Pi.smul_apply, smul_eq_mul, ih, hPP]
    ring

theorem isExp_invol {P : Op} (hP : P * P = 1) (z : ℂ) :
    IsExp (z • P) (Complex.cosh z • (1 : Op) + Complex.sinh z • P) := by
  intro ψ I
  have h1 := (Complex.hasSum_exp_series z).mul_right ((ψ I + P ψ I) / 2)
  have h2 := (Complex.hasSum_exp_series (-z)).mul_right ((ψ I - P ψ I) / 2)
  have h := h1.add h2
  convert! h using 1
  · funext k; rw [smul_pow_invol hP]; ring
  · simp only [LinearMap.add_apply, LinearMap.smul_apply, Module.End.one_apply, Pi.add_apply, Pi.smul_apply, smul_eq_mul,
      Complex.cosh, Complex.sinh]
    ring

theorem isExp_scalar (z : ℂ) : IsExp (z • (1 : Op)) (Complex.exp z • (1 : Op)) := by
  have := isExp_invol (P := (1 : Op)) (one_mul 1) z
  rwa [← add_smul, Complex.cosh_add_sinh] at this

theorem IsExp.unique {A U V : Op} (h : IsExp A U) (h' : IsExp A V) : U = V :=
  Op.ext' fun ψ I => (h ψ I).unique (h' ψ I)

/-- the rotation with angle `-2 y` is the exponential of `i y P` -/
theorem rotOp_exp {P : Op} (hP : P * P = 1) (y : ℝ) : IsExp ((y * Complex.I : ℂ) • P) (rotOp P (-2 * y)) := by
  have := isExp_invol hP (y * Complex.I : ℂ)
  convert! this using 1
  unfold rotOp
  rw [Complex.cosh_mul_I, Complex.sinh_mul_I]
  rw [show (-2 * y) / 2 = -y by ring, Real.cos_neg, Real.sin_neg, Complex.ofReal_neg, Complex.ofReal_cos, Complex.ofReal_sin,
    sub_eq_add_neg, ← Op.neg_one_smul, smul_smul]
  congr 2; ring

/-! ### the pieces of the circuit -/

def gCX (t c : ℕ) : Gate := ⟨"cX", t, c, matC 0 1 1 0, none⟩

theorem make_CX {t c : ℕ} (h : t ≠ c) (θ : ℝ) : makeGate "cX" t c θ = .ok (gCX t c) := makeGate_of_made (.cX t c θ h)

theorem op_gCX {t c : ℕ} (h : t ≠ c) : (gCX t c).op = ctrlOp c true (opX t) := by
  have := (makeGate_spec (make_CX h 0)).2.2.2
  simp [stdGate, h] at this
  exact this.symm

/-- the basis change -/
noncomputable def toZc (c : Circuit) : Circuit :=
  c.flatMap fun g => if g.label = "X" then [gH g.target] else if g.label = "Y" then [gRxh g.target] else []

/-- the CNOT ladder -/
def cxChain : Option ℕ → Circuit → Circuit
  | _, [] => []
  | none, g :: c => cxChain (some g.target) c
  | some p, g :: c => gCX g.target p :: cxChain (some g.target) c

theorem IsIXYZ.cases {s : String} (h : IsIXYZ s) : s = "I" ∨ s = "X" ∨ s = "Y" ∨ s = "Z" := by
  rcases h with h | h | h | h <;> simp [h]

/-- the letters that are not identities -/
def Circuit.noI (c : Circuit) : Circuit := c.filter fun g => g.label ≠ "I"

theorem noI_pauli {c : Circuit} (h : c.IPauliString) : (∀ g ∈ c.noI, PauliGate g) ∧ (c.noI.map Gate.target).Nodup := by
  constructor
  · intro g hg
    obtain ⟨h1, h2⟩ := List.mem_filter.1 hg
    have := h.gates g h1
    rcases this.1 with e | e
    · simp [e] at h2
    · exact ⟨e, this.2⟩
  · exact h.distinct.sublist (List.filter_sublist.map _)

theorem op_I_gate {g : Gate} (hl : g.label = "I") (h : makeGate g.label g.target g.target 0 = .ok g) : g.op = 1 := by
  have := (makeGate_spec h).2.2.2
  rw [hl] at this
  simp [stdGate] at this
  exact this.symm

theorem noI_op {c : Circuit} (h : c.IPauliString) : Circuit.op c.noI = Circuit.op c := by
  have hg := h.gates
  clear h
  induction c with
  | nil => rfl
  | cons g c ih =>
    have ih' := ih (fun x hx => hg x (by simp [hx]))
    by_cases e : g.label = "I"
    · have : Circuit.noI (g :: c) = Circuit.noI c := by simp [Circuit.noI, e]
      rw [this, ih', Circuit.op_cons, op_I_gate e (hg g (by simp)).2, mul_one]
    · have : Circuit.noI (g :: c) = g :: Circuit.noI c := by simp [Circuit.noI, e]
      rw [this, Circuit.op_cons, Circuit.op_cons, ih']

theorem py_H (t : ℕ) : pyGate2 "H" t t = .ok (gH t) := by
  unfold pyGate2; rw [if_neg (by decide), if_pos ⟨rfl, by decide⟩]; exact make_H t 0
theorem py_X (t : ℕ) : pyGate2 "X" t t = .ok (gX t) := by
  unfold pyGate2; rw [if_neg (by decide), if_pos ⟨rfl, by decide⟩]; exact make_X t 0
theorem py_CX {t c : ℕ} (h : t ≠ c) : pyGate2 "cX" t c = .ok (gCX t c) := by
  unfold pyGate2; rw [if_pos (by decide)]; exact make_CX h 0
theorem py3_real (ty : String) (t c : ℕ) (x : ℝ) : pyGate3 ty t c (x : ℂ) = makeGate ty t c x := by
  unfold pyGate3; simp

theorem expoStep_ok (v : ExpoVars) (g : Gate) (hg : IsIXYZ g.label ∧ makeGate g.label g.target g.target 0 = .ok g)
    (hne : g.label ≠ "I" → ∀ p, v.prevTarget = some p → g.target ≠ p) (hv : v.prevTarget = v.maxTarget) :
    ∃ o p, expoStep v g = .ok ⟨v.toZ ++ toZc [g], o, v.cX ++ cxChain v.prevTarget (Circuit.noI [g]), p, p⟩ ∧
      p = if g.label = "I" then v.prevTarget else some g.target := by
  have hc : g.control = g.target := (makeGate_spec hg.2).2.2.1
  have tail : ∀ v1 : ExpoVars, v1.prevTarget = v.prevTarget → g.label ≠ "I" →
      (do
        let v2 ← (match v1.prevTarget with
          | none => pure v1
          | some p => do
            let x ← pyGate2 "cX" g.target p
            pure { v1 with cX := v1.cX.addGate x } : Except Exc ExpoVars)
        pure { v2 with prevTarget := some g.target, maxTarget := some g.target } : Except Exc ExpoVars) =
      .ok ⟨v1.toZ, v1.toOriginal, v1.cX ++ cxChain v.prevTarget [g], some g.target, some g.target⟩ := by
    intro v1 h1 hl
    rcases hp : v.prevTarget with _ | p
    · rw [h1, hp]; simp [cxChain]; rfl
    · rw [h1, hp]
      simp only
      rw [py_CX (hne hl p hp), except_ok_bind]; rfl
  rcases hg.1.cases with e | e | e | e
  · refine ⟨v.toOriginal, v.prevTarget, ?_, by simp [e]⟩
    unfold expoStep
    simp [e, toZc, Circuit.noI, cxChain, pure, Except.pure]
    cases v; simp only at hv; subst hv; rfl
  · have e' : g.label ≠ "I" := by rw [e]; decide
    have hn : Circuit.noI [g] = [g] := by simp [Circuit.noI, e']
    refine ⟨v.toOriginal ++ [gH g.target], some g.target, ?_, by simp [e]⟩
    have := tail { v with toZ := v.toZ.addGate (gH g.target), toOriginal := v.toOriginal.addGate (gH g.target) } rfl e'
    unfold expoStep
    rw [if_pos e, hc, py_H]
    simp only [except_ok_bind, pure, Except.pure]
    rw [if_neg e', hn]
    have hz : toZc [g] = [gH g.target] := by simp [toZc, e]
    rw [hz]; exact this
  · have e' : g.label ≠ "I" := by rw [e]; decide
    have e2 : g.label ≠ "X" := by rw [e]; decide
    have hn : Circuit.noI [g] = [g] := by simp [Circuit.noI, e']
    obtain ⟨b, hb⟩ := makeGate_ok_of_name (ty := "Rx") (t := g.target) (c := g.target) (-Real.pi / 2) (.inl ⟨rfl, by decide⟩)
    refine ⟨v.toOriginal ++ [b], some g.target, ?_, by simp [e]⟩
    have := tail { v with toZ := v.toZ.addGate (gRxh g.target), toOriginal := v.toOriginal.addGate b } rfl e'
    unfold expoStep
    rw [if_neg e2, if_pos e, hc, py3_real, py3_real, make_Rxh, hb]
    simp only [except_ok_bind, pure, Except.pure]
    rw [if_neg e', hn]
    have hz : toZc [g] = [gRxh g.target] := by simp [toZc, e]
    rw [hz]; exact this
  · have e' : g.label ≠ "I" := by rw [e]; decide
    have e2 : g.label ≠ "X" := by rw [e]; decide
    have e3 : g.label ≠ "Y" := by rw [e]; decide
    have hn : Circuit.noI [g] = [g] := by simp [Circuit.noI, e']
    refine ⟨v.toOriginal, some g.target, ?_, by simp [e]⟩
    have := tail v rfl e'
    unfold expoStep
    rw [if_neg e2, if_neg e3]
    simp only [except_ok_bind, pure, Except.pure]
    rw [if_neg e', hn]
    have hz : toZc [g] = [] := by simp [toZc, e]
    rw [hz, List.append_nil]; exact this

theorem toZc_cons (g : Gate) (c : Circuit) : toZc (g :: c) = toZc [g] ++ toZc c := by simp [toZc]

theorem expoFold_ok : ∀ (c : Circuit) (v : ExpoVars), (∀ g ∈ c, IsIXYZ g.label ∧ makeGate g.label g.target g.target 0 = .ok g) →
    (v.prevTarget.toList ++ (Circuit.noI c).map Gate.target).Nodup → v.prevTarget = v.maxTarget →
    ∃ o p, c.foldlM expoStep v = .ok ⟨v.toZ ++ toZc c, o, v.cX ++ cxChain v.prevTarget (Circuit.noI c), p, p⟩ ∧
      p = ((Circuit.noI c).getLast?.map Gate.target).or v.prevTarget := by
  intro c
  induction c with
  | nil =>
    intro v _ _ hv
    refine ⟨v.toOriginal, v.prevTarget, ?_, by simp [Circuit.noI]⟩
    cases v; simp only at hv; subst hv
    simp [toZc, Circuit.noI, cxChain, pure, Except.pure]
  | cons g c ih =>
    intro v hg hn hv
    have hg0 := hg g (by simp)
    by_cases e : g.label = "I"
    · have en : Circuit.noI (g :: c) = Circuit.noI c := by simp [Circuit.noI, e]
      rw [en] at hn ⊢
      obtain ⟨o, p, h1, h2⟩ := expoStep_ok v g hg0 (fun h => absurd e h) hv
      rw [if_pos e] at h2
      have e1 : cxChain v.prevTarget (Circuit.noI [g]) = [] := by
        simp [Circuit.noI, e, cxChain]
      rw [e1, List.append_nil] at h1
      obtain ⟨o', p', k1, k2⟩ := ih ⟨v.toZ ++ toZc [g], o, v.cX, p, p⟩ (fun x hx => hg x (by simp [hx])) (by rw [h2]; exact hn) rfl
      refine ⟨o', p', ?_, ?_⟩
      · rw [List.foldlM_cons, h1, except_ok_bind, k1, toZc_cons g c, List.append_assoc]
        simp only [h2]
      · rw [k2]; simp only [h2]
    · have en : Circuit.noI (g :: c) = g :: Circuit.noI c := by simp [Circuit.noI, e]
      have en1 : Circuit.noI [g] = [g] := by simp [Circuit.noI, e]
      rw [en] at hn ⊢
      have hne : g.label ≠ "I" → ∀ p, v.prevTarget = some p → g.target ≠ p := by
        intro _ p hp ee
        rw [hp, List.map_cons, ee] at hn
        simp at hn
      obtain ⟨o, p, h1, h2⟩ := expoStep_ok v g hg0 hne hv
      rw [if_neg e] at h2
      rw [en1] at h1
      obtain ⟨o', p', k1, k2⟩ := ih ⟨v.toZ ++ toZc [g], o, v.cX ++ cxChain v.prevTarget [g], p, p⟩ (fun x hx => hg x (by simp [hx]))
        (by
          rw [h2]
          have := (List.nodup_append.1 hn).2.1
          simpa using this) rfl
      refine ⟨o', p', ?_, ?_⟩
      · rw [List.foldlM_cons, h1, except_ok_bind, k1, toZc_cons g c, List.append_assoc, List.append_assoc]
        simp only [h2]
        congr 3
        rcases v.prevTarget with _ | q <;> rfl
      · rw [k2]; simp only [h2]
        rw [List.getLast?_cons]
        rcases (Circuit.noI c).getLast? with _ | x <;> simp

theorem zString_comm {c : Circuit} {t : ℕ} (m : M2) (h : ∀ g ∈ c, t ≠ g.target) : Commute (op1 t m) (zString c) := by
  induction c with
  | nil => exact Commute.one_right _
  | cons g c ih =>
    exact (ih fun x hx => h x (by simp [hx])).mul_right (op1_comm (h g (by simp)) _ _)

theorem cx_intertwine {t c : ℕ} (h : t ≠ c) : opZ t * ctrlOp c true (opX t) = ctrlOp c true (opX t) * (opZ t * opZ c) := by
  apply Op.ext'; intro ψ I
  simp only [Module.End.mul_apply, opZ_apply, ctrlOp_apply, opX_apply]
  cases h1 : I.testBit t <;> cases h2 : I.testBit c <;> simp [testBit_flipBit, h1, h2, h, Ne.symm h]

theorem op_cxChain_cons (q : ℕ) (g : Gate) (c : Circuit) (h : g.target ≠ q) :
    Circuit.op (cxChain (some q) (g :: c)) = Circuit.op (cxChain (some g.target) c) * ctrlOp q true (opX g.target) := by
  show Circuit.op (gCX g.target q :: cxChain (some g.target) c) = _
  rw [Circuit.op_cons, op_gCX h]

theorem chain_intertwine : ∀ (c : Circuit) (q : ℕ), (q :: c.map Gate.target).Nodup →
    opZ ((c.getLast?.map Gate.target).getD q) * Circuit.op (cxChain (some q) c) =
      Circuit.op (cxChain (some q) c) * (zString c * opZ q) := by
  intro c
  induction c with
  | nil => intro q _; simp [cxChain, zString]
  | cons g c ih =>
    intro q hn
    rw [List.map_cons, List.nodup_cons] at hn
    obtain ⟨h1, h2⟩ := hn
    rw [List.mem_cons, not_or] at h1
    have hne : g.target ≠ q := fun e => h1.1 e.symm
    rw [op_cxChain_cons q g c hne]
    have hl : (((g :: c).getLast?).map Gate.target).getD q = ((c.getLast?).map Gate.target).getD g.target := by
      rw [List.getLast?_cons]
      rcases c.getLast? with _ | x <;> simp
    have ih' := ih g.target h2
    have hz : Commute (ctrlOp q true (opX g.target)) (zString c) := by
      have k1 : ∀ m, Commute (op1 q m) (zString c) := fun m => zString_comm m fun x hx e => h1.2 (e ▸ List.mem_map_of_mem hx)
      have k2 : ∀ m, Commute (op1 g.target m) (zString c) := fun m => zString_comm m fun x hx e =>
        (List.nodup_cons.1 h2).1 (e ▸ List.mem_map_of_mem hx)
      exact ((k1 _).add_left ((k1 _).mul_left (k2 _)))
    rw [hl, ← mul_assoc, ih', zString]
    have hx := cx_intertwine hne
    calc Circuit.op (cxChain (some g.target) c) * (zString c * opZ g.target) * ctrlOp q true (opX g.target)
        = Circuit.op (cxChain (some g.target) c) * (zString c * (opZ g.target * ctrlOp q true (opX g.target))) := by
          simp only [mul_assoc]
      _ = Circuit.op (cxChain (some g.target) c) * ((zString c * ctrlOp q true (opX g.target)) * (opZ g.target * opZ q)) := by
          rw [hx]; simp only [mul_assoc]
      _ = _ := by rw [← hz.eq]; simp only [mul_assoc]

theorem op_toZc {c : Circuit} (hp : ∀ g ∈ c, PauliGate g) : Circuit.op (toZc c) = Circuit.op (c.map rotOf) := by
  induction c with
  | nil => rfl
  | cons g c ih =>
    rw [toZc_cons, Circuit.op_append, List.map_cons, Circuit.op_cons, ih fun x hx => hp x (by simp [hx])]
    congr 1
    rcases (hp g (by simp)).letter with e | e | e
    · simp [toZc, rotOf, e]
    · simp [toZc, rotOf, e]
    · have : (gI g.target).op = 1 := op_I_gate (g := gI g.target) rfl (make_I _ 0)
      simp [toZc, rotOf, e, this]

theorem toZc_noI {c : Circuit} : toZc (Circuit.noI c) = toZc c := by
  induction c with
  | nil => rfl
  | cons g c ih =>
    by_cases e : g.label = "I"
    · have en : Circuit.noI (g :: c) = Circuit.noI c := by simp [Circuit.noI, e]
      rw [en, toZc_cons, ih]
      simp [toZc, e]
    · have en : Circuit.noI (g :: c) = g :: Circuit.noI c := by simp [Circuit.noI, e]
      rw [en, toZc_cons, toZc_cons g c, ih]

theorem toZc_api (c : Circuit) : ∀ g ∈ toZc c, ApiGate g := by
  intro g hg
  obtain ⟨x, hx, h⟩ := List.mem_flatMap.1 hg
  split_ifs at h with h1 h2
  · rw [List.mem_singleton.1 h]; exact .make (make_H x.target 0)
  · rw [List.mem_singleton.1 h]; exact .make (make_Rxh x.target)
  · cases h

theorem toZc_target {c : Circuit} : ∀ g ∈ toZc c, ∃ x ∈ c, g.target = x.target ∧ g.control = x.target := by
  intro g hg
  obtain ⟨x, hx, h⟩ := List.mem_flatMap.1 hg
  refine ⟨x, hx, ?_⟩
  split_ifs at h with h1 h2
  · rw [List.mem_singleton.1 h]; exact ⟨rfl, rfl⟩
  · rw [List.mem_singleton.1 h]; exact ⟨rfl, rfl⟩
  · cases h

theorem cxChain_gates : ∀ (c : Circuit) (q : ℕ), (q :: c.map Gate.target).Nodup →
    ∀ g ∈ cxChain (some q) c, ∃ t ∈ q :: c.map Gate.target, ∃ p ∈ q :: c.map Gate.target, t ≠ p ∧ g = gCX t p := by
  intro c
  induction c with
  | nil => intro q _ g hg; cases hg
  | cons x c ih =>
    intro q hn g hg
    rw [List.map_cons, List.nodup_cons] at hn
    rcases List.mem_cons.1 (show g ∈ gCX x.target q :: cxChain (some x.target) c from hg) with rfl | hg
    · exact ⟨x.target, by simp, q, by simp, fun e => hn.1 (by simp [← e]), rfl⟩
    · obtain ⟨t, ht, p, hp, hne, e⟩ := ih x.target hn.2 g hg
      exact ⟨t, List.mem_cons_of_mem _ ht, p, List.mem_cons_of_mem _ hp, hne, e⟩

/-- everything about the part of the circuit before the rotation -/
theorem expo_prefix {c : Circuit} (h : c.IPauliString) (hne : Circuit.noI c ≠ []) :
    ∃ o p W, c.foldlM expoStep ⟨[], [], [], none, none⟩ = .ok ⟨toZc c, o, W, some p, some p⟩ ∧
      p ∈ (Circuit.noI c).map Gate.target ∧
      (∀ g ∈ toZc c ++ W, ApiGate g ∧ g.target ∈ (Circuit.noI c).map Gate.target ∧ g.control ∈ (Circuit.noI c).map Gate.target) ∧
      opZ p * (Circuit.op W * Circuit.op (toZc c)) = (Circuit.op W * Circuit.op (toZc c)) * c.op := by
  obtain ⟨hp, hn⟩ := noI_pauli h
  obtain ⟨o, p, h1, h2⟩ := expoFold_ok c ⟨[], [], [], none, none⟩ h.gates (by simpa using hn) rfl
  obtain ⟨g, d, hd⟩ := List.exists_cons_of_ne_nil hne
  have hlast : p = some ((d.getLast?.map Gate.target).getD g.target) := by
    rw [h2, hd, List.getLast?_cons]
    rcases d.getLast? with _ | x <;> simp
  have hW : cxChain none (Circuit.noI c) = cxChain (some g.target) d := by rw [hd]; rfl
  rw [hd, List.map_cons] at hn
  refine ⟨o, (d.getLast?.map Gate.target).getD g.target, cxChain (some g.target) d, ?_, ?_, ?_, ?_⟩
  · rw [h1]; simp only [List.nil_append]; rw [hW, hlast]
  · rw [hd]
    rcases hq : d.getLast? with _ | x
    · simp
    · simp only [Option.map_some, Option.getD_some, List.map_cons, List.mem_cons]
      exact .inr (List.mem_map_of_mem (List.mem_of_getLast? hq))
  · intro x hx
    rcases List.mem_append.1 hx with hx | hx
    · rw [← toZc_noI] at hx
      refine ⟨toZc_api _ x hx, ?_⟩
      obtain ⟨y, hy, e1, e2⟩ := toZc_target x hx
      rw [e1, e2]; exact ⟨List.mem_map_of_mem hy, List.mem_map_of_mem hy⟩
    · obtain ⟨t, ht, q, hq, hne', rfl⟩ := cxChain_gates d g.target hn x hx
      rw [hd]
      exact ⟨.make (make_CX hne' 0), ht, hq⟩
  · have e1 := chain_intertwine d g.target hn
    have e2 := zString_rot hp (by rw [hd]; exact hn)
    rw [← toZc_noI, op_toZc hp, ← noI_op h, ← mul_assoc, e1, mul_assoc]
    rw [show zString d * opZ g.target = zString (Circuit.noI c) by rw [hd]; rfl, e2, mul_assoc]

end QF
