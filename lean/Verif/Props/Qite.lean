import Verif.Model.QITE
import Verif.Spec.Qite
import Verif.Lemmas.GramLsq
import Verif.Props.Krylov
import Verif.Props.UccGradient3
import Verif.Props.QubitPool
import Verif.Props.Hadamard

/-!
C82, C83: quantum imaginary time evolution (`ite/qite.py`).
-/
namespace QF
namespace QiteAlg

/-- the Hamiltonian and the preparation circuit of a QITE calculation: real coefficients and Pauli strings on `nqb` qubits -/
structure Ready (A : QiteAlg) : Prop where
  prep : A.uprep.Fits A.nqb ∧ ∀ g ∈ A.uprep, ApiGate g ∧ ExactGate g
  ham : ∀ t ∈ A.ham, t.1.im = 0 ∧ t.2.PauliString A.nqb
  steps : 0 ≤ A.trotterNumber

/-- the pool that consists of the Pauli strings `σ`, each with coefficient 1 -/
noncomputable def poolOf (σ : List Circuit) : QubitOpPool := σ.map fun c => (1, [(1, c)])

theorem op_single (c : Circuit) : QubitOperator.op [(1, c)] = c.op := by
  simp [QubitOperator.op]

theorem reset_wf {A : QiteAlg} {v : List ℂ} (h : v.length = 2 ^ A.nqb) : ((Computer.init A.nqb).setCoeffVec v).WF :=
  ⟨(Computer.WF.init A.nqb).nbasis, h, (Computer.WF.init A.nqb).new⟩

theorem string_fits {n : ℕ} {c : Circuit} (h : c.PauliString n) : ∀ t ∈ ([(1, c)] : QubitOperator), t.2.Fits n ∧ ∀ g ∈ t.2, ExactGate g := by
  intro t ht
  obtain rfl := List.mem_singleton.1 ht
  exact ⟨h.fits, fun g hg => (h.gates g hg).exact⟩

/-- the inner loop of the Gram matrix -/
theorem gram_inner {n i : ℕ} {p : List ℂ} (hp : p.length = 2 ^ n) {ci : List (List ℂ)} {v : ℕ → St}
    (hci : ∀ j < i, ∃ u, ci[j]? = some u ∧ u.length = 2 ^ n ∧ vec u = v j) (S : NMat) (m : ℕ) (hm : m ≤ i) :
    ∃ S', (List.range m).foldlM (fun (S : NMat) j => (do
        let v ← (ci[j]?).elim (.error .indexError) pure
        let z ← vdot p v
        pure ((S.set i j z).set j i z) : Except Exc NMat)) S = .ok S' ∧
      ∀ a b, S' a b = if a = i ∧ b < m then inner n (vec p) (v b) else if b = i ∧ a < m then inner n (vec p) (v a) else S a b := by
  induction m with
  | zero => exact ⟨S, rfl, by intro a b; simp⟩
  | succ m ih =>
    obtain ⟨S', e, h⟩ := ih (by omega)
    obtain ⟨u, u1, u2, u3⟩ := hci m (by omega)
    refine ⟨(S'.set i m (inner n (vec p) (v m))).set m i (inner n (vec p) (v m)), ?_, ?_⟩
    · rw [List.range_succ, List.foldlM_append, e, except_ok_bind, List.foldlM_cons, u1]
      simp only [Option.elim_some, pure, Except.pure, except_ok_bind]
      rw [vdot_eq hp u2, except_ok_bind, u3, except_ok_bind]; rfl
    · intro a b
      simp only [NMat.set, h]
      by_cases h1 : a = m ∧ b = i
      · obtain ⟨rfl, rfl⟩ := h1
        rw [if_pos ⟨rfl, rfl⟩, if_neg (by omega), if_pos ⟨rfl, by omega⟩]
      · rw [if_neg h1]
        by_cases h2 : a = i ∧ b = m
        · obtain ⟨rfl, rfl⟩ := h2
          rw [if_pos ⟨rfl, rfl⟩, if_pos ⟨rfl, by omega⟩]
        · rw [if_neg h2]
          by_cases h3 : a = i ∧ b < m
          · rw [if_pos h3, if_pos ⟨h3.1, by omega⟩]
          · rw [if_neg h3]
            have h3' : ¬ (a = i ∧ b < m + 1) := fun h => by
              by_cases hb : b = m
              · exact h2 ⟨h.1, hb⟩
              · exact h3 ⟨h.1, by omega⟩
            rw [if_neg h3']
            by_cases h4 : b = i ∧ a < m
            · rw [if_pos h4, if_pos ⟨h4.1, by omega⟩]
            · rw [if_neg h4, if_neg (fun h => by
                by_cases ha : a = m
                · exact h1 ⟨ha, h.1⟩
                · exact h4 ⟨h.1, by omega⟩)]

theorem string_unitary {n : ℕ} {c : Circuit} (h : c.PauliString n) : ∀ g ∈ c, MatUnitary g.target g.control g.mat :=
  fun g hg => C02_unitary (.make (h.gates g hg).make)

/-- `build_S()` and the matrix of `build_sparse_S_b`: the real part of the Gram matrix of the vectors `σ_I ψ` -/
theorem gram_ok {A : QiteAlg} {q : Computer} (hq : q.WF) (hn : q.nqubit = A.nqb) (h1 : inner A.nqb q.psi q.psi = 1) (σ : List Circuit)
    (hσ : ∀ c ∈ σ, c.PauliString A.nqb) :
    ∃ S, A.gram q (σ.map fun c => [(1, c)]) = .ok S ∧ ∀ i < σ.length, ∀ j < σ.length,
      S i j = (inner A.nqb ((σ.getD i []).op q.psi) ((σ.getD j []).op q.psi)).re := by
  have hl : q.coeff.length = 2 ^ A.nqb := by rw [hq.len, hn]
  have step : ∀ c : Circuit, c.PauliString A.nqb → ∃ p, ((Computer.init A.nqb).setCoeffVec q.coeff).applyOperator [(1, c)] = .ok p ∧
      p.coeff.length = 2 ^ A.nqb ∧ vec p.coeff = c.op q.psi := by
    intro c hc
    obtain ⟨p, e, w, m, f⟩ := C24_apply_operator ((Computer.init A.nqb).setCoeffVec q.coeff) [(1, c)] (reset_wf hl) (string_fits hc)
    refine ⟨p, e, by rw [w.len, m]; rfl, ?_⟩
    have : vec p.coeff = QubitOperator.op [(1, c)] q.psi := f
    rw [this, op_single]
  have key : ∀ σ : List Circuit, (∀ c ∈ σ, c.PauliString A.nqb) → ∃ ci M, (σ.map fun c => ([(1, c)] : QubitOperator)).foldlM (A.gramStep q) ([], fun _ _ => 0) = .ok (ci, M) ∧
      ci.length = σ.length ∧ (∀ j < σ.length, ∃ u, ci[j]? = some u ∧ u.length = 2 ^ A.nqb ∧ vec u = (σ.getD j []).op q.psi) ∧
      ∀ i < σ.length, ∀ j < σ.length, (M i j).re = (inner A.nqb ((σ.getD i []).op q.psi) ((σ.getD j []).op q.psi)).re := by
    intro σ
    induction σ using List.reverseRecOn with
    | nil => intro _; exact ⟨[], _, rfl, rfl, by simp, by simp⟩
    | append_singleton σ c ih =>
      intro hσ
      obtain ⟨ci, M, e, l, hu, hM⟩ := ih fun c hc => hσ c (by simp [hc])
      have hc := hσ c (by simp)
      obtain ⟨p, e2, l2, v2⟩ := step c hc
      obtain ⟨S', e3, h3⟩ := gram_inner (n := A.nqb) (i := ci.length) l2 (ci := ci) (v := fun j => (σ.getD j []).op q.psi)
        (by rw [l]; exact hu) (M.set ci.length ci.length 1) ci.length le_rfl
      have g1 : ∀ j < σ.length, (σ ++ [c]).getD j [] = σ.getD j [] := fun j hj => by
        simp only [List.getD_eq_getElem?_getD]; rw [List.getElem?_append_left hj]
      have g2 : (σ ++ [c]).getD σ.length [] = c := by simp
      refine ⟨ci ++ [p.coeff], S', ?_, by simp [l], ?_, ?_⟩
      · rw [List.map_append, List.foldlM_append, e, except_ok_bind, List.map_singleton, List.foldlM_cons]
        have : A.gramStep q (ci, M) [(1, c)] = .ok (ci ++ [p.coeff], S') := by
          unfold gramStep
          simp only [e2, except_ok_bind]
          rw [e3]; rfl
        rw [this]; rfl
      · intro j hj
        by_cases h : j < σ.length
        · obtain ⟨u, u1, u2, u3⟩ := hu j h
          exact ⟨u, by rw [List.getElem?_append_left (by omega)]; exact u1, u2, by rw [u3, g1 j h]⟩
        · have hj' : j = σ.length := by simp at hj; omega
          subst hj'
          exact ⟨p.coeff, by rw [← l]; simp, l2, by rw [v2, g2]⟩
      · intro i hi j hj
        rw [List.length_append, List.length_singleton] at hi hj
        rw [h3, l, v2]
        simp only [NMat.set]
        by_cases hii : i = σ.length
        · subst hii
          by_cases hjj : j = σ.length
          · subst hjj
            rw [if_neg (by omega), if_neg (by omega), if_pos ⟨rfl, rfl⟩, g2, inner_circuit hc.fits (string_unitary hc), h1]
          · rw [if_pos ⟨rfl, by omega⟩, g2, g1 j (by omega)]
        · by_cases hjj : j = σ.length
          · subst hjj
            rw [if_neg (by omega), if_pos ⟨rfl, by omega⟩, g2, g1 i (by omega), re_inner_comm]
          · rw [if_neg (by omega), if_neg (by omega), if_neg (by omega), g1 i (by omega), g1 j (by omega)]
            exact hM i (by omega) j (by omega)
  obtain ⟨ci, M, e, -, -, hM⟩ := key σ hσ
  refine ⟨fun i j => (M i j).re, ?_, hM⟩
  unfold gram
  rw [e, except_ok_bind]; rfl

/-! ### the vector `b` and the linear system -/

theorem comb_eq (σ : List Circuit) (x : List ℝ) (h : x.length = σ.length) (ψ : St) :
    pauliComb σ x ψ = rcomb σ.length (fun i => (σ.getD i []).op ψ) (fun i => x.getD i 0) := by
  unfold pauliComb rcomb
  induction σ generalizing x with
  | nil => simp
  | cons c σ ih =>
    cases x with
    | nil => simp at h
    | cons a x =>
      rw [List.zipWith_cons_cons, List.sum_cons, ih x (by simpa using h), List.length_cons, Finset.sum_range_succ']
      simp only [List.getD_cons_succ, List.getD_cons_zero]
      rw [add_comm]

theorem pauli_herm {n : ℕ} {c : Circuit} (hc : c.PauliString n) (φ ψ : St) : inner n φ (c.op ψ) = inner n (c.op φ) ψ := by
  have := hermitian_of_real (n := n) (H := [(1, c)]) (by simpa using hc) φ ψ
  rwa [op_single] at this

/-- the right-hand side is the product of `σ_I ψ` with a fixed vector -/
theorem rhs_eq {n : ℕ} {H : Op} {db : ℝ} {ψ : St} {c : Circuit} (hc : c.PauliString n) (hdb : db ≠ 0) :
    rhsElem n H db ψ c = (inner n (c.op ψ) ((Complex.I / db) • (imagStep n H db ψ - ψ))).re := by
  unfold rhsElem imagStep
  set s := Real.sqrt (1 - 2 * db * energy n H ψ)
  have e : inner n (c.op ψ) ((Complex.I / db) • ((((1 / s : ℝ)) : ℂ) • (ψ - (db : ℂ) • H ψ) - ψ)) =
      Complex.I / db * (((1 / s : ℝ) : ℂ) * (inner n (c.op ψ) ψ - db * inner n (c.op ψ) (H ψ)) - inner n (c.op ψ) ψ) := by
    simp only [inner, Finset.mul_sum, ← Finset.sum_sub_distrib]
    refine Finset.sum_congr rfl fun I _ => ?_
    simp only [Pi.smul_apply, Pi.sub_apply, smul_eq_mul]; ring
  rw [e, pauli_herm hc]
  have hr : (inner n (c.op ψ) ψ).im = 0 := by
    rw [← pauli_herm hc, ← inner_real_of_pauli hc ψ, Complex.ofReal_im]
  have e2 : Complex.I / db * (((1 / s : ℝ) : ℂ) * (inner n (c.op ψ) ψ - db * inner n (c.op ψ) (H ψ)) - inner n (c.op ψ) ψ) =
      Complex.I * ((((1 / s - 1) / db : ℝ) : ℂ) * inner n (c.op ψ) ψ - ((1 / s : ℝ) : ℂ) * inner n (c.op ψ) (H ψ)) := by
    have : (db : ℂ) ≠ 0 := by exact_mod_cast hdb
    push_cast
    field_simp
    ring
  rw [e2, Complex.I_mul_re, Complex.sub_im, Complex.im_ofReal_mul, Complex.im_ofReal_mul, hr]
  ring

/-- a solution of `S x = b` gives the step nearest to the imaginary-time step -/
theorem nearest_of_solves {n : ℕ} {H : Op} {db : ℝ} {ψ : St} {σ : List Circuit} (hσ : ∀ c ∈ σ, c.PauliString n) (hdb : db ≠ 0) {x : List ℝ}
    (hl : x.length = σ.length)
    (hx : ∀ i < σ.length, ∑ j ∈ Finset.range σ.length, (inner n ((σ.getD i []).op ψ) ((σ.getD j []).op ψ)).re * x.getD j 0 = rhsElem n H db ψ (σ.getD i [])) :
    NearestStep n H db σ ψ x := by
  refine ⟨hl, fun y hy => ?_⟩
  have mem : ∀ i < σ.length, σ.getD i [] ∈ σ := fun i hi => by
    rw [List.getD_eq_getElem?_getD, List.getElem?_eq_getElem hi]; exact List.getElem_mem hi
  have key : ∀ z : List ℝ, z.length = σ.length → nrm n (imagStep n H db ψ - (ψ - (Complex.I * db) • pauliComb σ z ψ)) =
      |db| * nrm n ((Complex.I / db) • (imagStep n H db ψ - ψ) - rcomb σ.length (fun i => (σ.getD i []).op ψ) (fun i => z.getD i 0)) := by
    intro z hz
    rw [← comb_eq σ z hz ψ]
    have hdb' : (db : ℂ) ≠ 0 := by exact_mod_cast hdb
    have e : imagStep n H db ψ - (ψ - (Complex.I * db) • pauliComb σ z ψ) =
        (-Complex.I * db) • ((Complex.I / db) • (imagStep n H db ψ - ψ) - pauliComb σ z ψ) := by
      rw [smul_sub, smul_smul, show -Complex.I * (db : ℂ) * (Complex.I / db) = 1 by
        field_simp; rw [Complex.I_sq]; norm_num, one_smul, neg_mul, neg_smul]
      abel
    rw [e, nrm_smul]
    simp
  rw [key x hl, key y hy]
  refine mul_le_mul_of_nonneg_left (gram_nearest ?_ _) (abs_nonneg _)
  intro i hi
  rw [hx i hi, rhs_eq (hσ _ (mem i hi)) hdb]

/-- `scipy.linalg.lstsq` minimises `|S x - b|` -/
def IsLstsq (ls : LstsqOracle) : Prop := ∀ (n : ℕ) (S : RMat) (b : List ℝ), b.length = n → (ls n S b).length = n ∧ ∀ y : ℕ → ℝ,
  ∑ i ∈ Finset.range n, (∑ j ∈ Finset.range n, S i j * (ls n S b).getD j 0 - b.getD i 0) ^ 2 ≤
    ∑ i ∈ Finset.range n, (∑ j ∈ Finset.range n, S i j * y j - b.getD i 0) ^ 2

theorem lstsq_solves {ls : LstsqOracle} (hls : IsLstsq ls) {n : ℕ} {H : Op} {db : ℝ} {ψ : St} {σ : List Circuit} (hσ : ∀ c ∈ σ, c.PauliString n)
    (hdb : db ≠ 0) {S : RMat} (hS : ∀ i < σ.length, ∀ j < σ.length, S i j = (inner n ((σ.getD i []).op ψ) ((σ.getD j []).op ψ)).re) :
    (ls σ.length S (σ.map (rhsElem n H db ψ))).length = σ.length ∧ ∀ i < σ.length,
      ∑ j ∈ Finset.range σ.length, (inner n ((σ.getD i []).op ψ) ((σ.getD j []).op ψ)).re * (ls σ.length S (σ.map (rhsElem n H db ψ))).getD j 0 =
        rhsElem n H db ψ (σ.getD i []) := by
  obtain ⟨h1, h2⟩ := hls σ.length S (σ.map (rhsElem n H db ψ)) (by simp)
  refine ⟨h1, fun i hi => ?_⟩
  have gd : ∀ i < σ.length, (σ.map (rhsElem n H db ψ)).getD i 0 = rhsElem n H db ψ (σ.getD i []) := by
    intro i hi
    simp [List.getD_eq_getElem?_getD, hi]
  have mem : ∀ i < σ.length, σ.getD i [] ∈ σ := fun i hi => by
    rw [List.getD_eq_getElem?_getD, List.getElem?_eq_getElem hi]; exact List.getElem_mem hi
  have := gram_solves (n := n) (v := fun i => (σ.getD i []).op ψ) (w := (Complex.I / db) • (imagStep n H db ψ - ψ)) hS
    (fun i hi => by rw [gd i hi, rhs_eq (hσ _ (mem i hi)) hdb]) h2 i hi
  rw [gd i hi] at this
  rw [← this]
  exact Finset.sum_congr rfl fun j hj => by rw [hS i hi j (Finset.mem_range.1 hj)]


theorem buildB_ok {A : QiteAlg} (hA : A.Ready) {q : Computer} (hq : q.WF) (hn : q.nqubit = A.nqb) (σ : List Circuit) (hσ : ∀ c ∈ σ, c.PauliString A.nqb) :
    A.buildB (poolOf σ) q (energy A.nqb A.ham.op q.psi) = .ok (if 1 - 2 * A.db * energy A.nqb A.ham.op q.psi ≤ 0 then (if σ = [] then some [] else none)
      else some (σ.map (rhsElem A.nqb A.ham.op A.db q.psi))) := by
  have hl : q.coeff.length = 2 ^ A.nqb := by rw [hq.len, hn]
  obtain ⟨h, e, w, m, f⟩ := C24_apply_operator ((Computer.init A.nqb).setCoeffVec q.coeff) A.ham (reset_wf hl) (fun t ht => by
    have := (hA.ham t ht).2
    exact ⟨this.fits, fun g hg => (this.gates g hg).exact⟩)
  have m : h.nqubit = A.nqb := m
  have f : h.psi = A.ham.op q.psi := f
  unfold buildB
  rw [e, except_ok_bind]
  rw [mapM_ok _ (fun t : ℂ × QubitOperator => (-Complex.I / ((Real.sqrt (1 - 2 * A.db * energy A.nqb A.ham.op q.psi) : ℝ) : ℂ) * t.1 *
    inner A.nqb q.psi (t.2.op (A.ham.op q.psi))).re) (poolOf σ) ?_, except_ok_bind]
  · have hm : (poolOf σ).map (fun t : ℂ × QubitOperator => (-Complex.I / ((Real.sqrt (1 - 2 * A.db * energy A.nqb A.ham.op q.psi) : ℝ) : ℂ) * t.1 *
        inner A.nqb q.psi (t.2.op (A.ham.op q.psi))).re) = σ.map (rhsElem A.nqb A.ham.op A.db q.psi) := by
      unfold poolOf
      rw [List.map_map]
      refine List.map_congr_left fun c _ => ?_
      simp only [Function.comp, op_single, rhsElem]
      rw [mul_one, show -Complex.I / ((Real.sqrt (1 - 2 * A.db * energy A.nqb A.ham.op q.psi) : ℝ) : ℂ) * inner A.nqb q.psi (c.op (A.ham.op q.psi)) =
        -(Complex.I * inner A.nqb q.psi (c.op (A.ham.op q.psi))) / ((Real.sqrt (1 - 2 * A.db * energy A.nqb A.ham.op q.psi) : ℝ) : ℂ) by ring,
        Complex.div_ofReal_re, Complex.neg_re, Complex.I_mul_re, neg_neg]
    rw [hm]
    have : (poolOf σ = []) ↔ σ = [] := by unfold poolOf; simp
    simp only [this]; rfl
  · intro t ht
    obtain ⟨c, hc, rfl⟩ := List.mem_map.1 ht
    obtain ⟨p, e2, w2, m2, f2⟩ := C24_apply_operator (h.setCoeffVec h.coeff) [(1, c)] w (by
      show ∀ t ∈ ([(1, c)] : QubitOperator), t.2.Fits h.nqubit ∧ _
      rw [m]; exact string_fits (hσ c hc))
    have f2 : vec p.coeff = QubitOperator.op [(1, c)] h.psi := f2
    have l2 : p.coeff.length = 2 ^ A.nqb := by rw [w2.len, m2]; show 2 ^ h.nqubit = _; rw [m]
    simp only [e2, except_ok_bind, vdot_eq hl l2, f2, f]
    rfl

/-! ### the selection of strings and the operator -/

/-- the strings that enter the linear system: all of them, or with `sparseSb` those with `|b| > b_thresh` (`nan` is never larger) -/
noncomputable def chosen (A : QiteAlg) (σ : List Circuit) (ψ : St) : List Circuit :=
  if A.sparseSb then (if 1 - 2 * A.db * energy A.nqb A.ham.op ψ ≤ 0 then []
    else σ.filter fun c => open Classical in decide (A.bThresh < |rhsElem A.nqb A.ham.op A.db ψ c|)) else σ

/-- the strings that are used, with their coefficients: those with `|x| > x_thresh` -/
noncomputable def kept (A : QiteAlg) (σ : List Circuit) (x : List ℝ) : QubitOperator :=
  ((List.zip x σ).filter fun p => open Classical in decide (A.xThresh < |p.1|)).map fun p => (((p.1 : ℝ) : ℂ), p.2)

/-- `ψ → χ` is a step of QITE with coefficients `x`: they give the step nearest to the imaginary-time step, they solve `S x = b`, and `χ` is the
Trotter approximation of `exp(-i db Σ_I x_I σ_I) ψ` -/
structure IsStep (A : QiteAlg) (σ : List Circuit) (ψ χ : St) (x : List ℝ) : Prop where
  nearest : NearestStep A.nqb A.ham.op A.db (A.chosen σ ψ) ψ x
  solves : ∀ i < (A.chosen σ ψ).length, ∑ j ∈ Finset.range (A.chosen σ ψ).length,
    (inner A.nqb (((A.chosen σ ψ).getD i []).op ψ) (((A.chosen σ ψ).getD j []).op ψ)).re * x.getD j 0 = rhsElem A.nqb A.ham.op A.db ψ ((A.chosen σ ψ).getD i [])
  evolved : TrotterState (A.kept (A.chosen σ ψ) x) A.trotterNumber A.db ψ χ

theorem zipIdx_filter_fst {α : Type} (l : List α) (P : α → Bool) (k : ℕ) : ((l.zipIdx k).filter fun p => P p.1).map Prod.fst = l.filter P := by
  induction l generalizing k with
  | nil => rfl
  | cons a l ih =>
    rw [List.zipIdx_cons, List.filter_cons, List.filter_cons]
    by_cases h : P a <;> simp [h, ih]

/-- the selected pairs of string and index -/
theorem selected_ok {A : QiteAlg} {σ : List Circuit} {ψ : St} (h : 0 < 1 - 2 * A.db * energy A.nqb A.ham.op ψ ∨ A.sparseSb = true ∨ σ = []) :
    ∃ Z : List (Circuit × ℕ), (∀ p ∈ Z, σ[p.2]? = some p.1) ∧ Z.map Prod.fst = A.chosen σ ψ ∧
      A.selected (if 1 - 2 * A.db * energy A.nqb A.ham.op ψ ≤ 0 then (if σ = [] then some [] else none) else some (σ.map (rhsElem A.nqb A.ham.op A.db ψ))) =
        .ok (Z.map fun p => (p.2, rhsElem A.nqb A.ham.op A.db ψ p.1)) := by
  have hz : ∀ p ∈ σ.zipIdx, σ[p.2]? = some p.1 := fun p hp => by
    obtain ⟨a, i⟩ := p; exact List.mk_mem_zipIdx_iff_getElem?.1 hp
  have hm : ∀ k, (σ.map (rhsElem A.nqb A.ham.op A.db ψ)).zipIdx k = (σ.zipIdx k).map fun p => (rhsElem A.nqb A.ham.op A.db ψ p.1, p.2) := by
    intro k; rw [List.zipIdx_map]; rfl
  unfold selected chosen
  by_cases hs : A.sparseSb = true
  · simp only [hs, if_true]
    by_cases hc : 1 - 2 * A.db * energy A.nqb A.ham.op ψ ≤ 0
    · refine ⟨[], by simp, by simp [hc], ?_⟩
      rw [if_pos hc]
      by_cases h0 : σ = [] <;> simp [h0, sparseIdx] <;> rfl
    · rw [if_neg hc, if_neg hc]
      refine ⟨σ.zipIdx.filter fun p => open Classical in decide (A.bThresh < |rhsElem A.nqb A.ham.op A.db ψ p.1|), fun p hp => hz p (List.mem_filter.1 hp).1,
        zipIdx_filter_fst σ (fun c => open Classical in decide (A.bThresh < |rhsElem A.nqb A.ham.op A.db ψ c|)) 0, ?_⟩
      unfold sparseIdx
      simp only [hm, List.filter_map, List.map_map]
      rfl
  · have hs' : A.sparseSb = false := by simpa using hs
    simp only [hs', Bool.false_eq_true, if_false]
    refine ⟨σ.zipIdx, hz, by simp, ?_⟩
    by_cases h0 : σ = []
    · subst h0; simp; rfl
    · have hc : ¬ 1 - 2 * A.db * energy A.nqb A.ham.op ψ ≤ 0 := by
        rcases h with h | h | h
        · linarith
        · exact absurd h hs
        · exact absurd h h0
      rw [if_neg hc]
      simp only [hm, List.map_map]; rfl

theorem buildA_ok {A : QiteAlg} {σ : List Circuit} (Z : List (Circuit × ℕ)) (hZ : ∀ p ∈ Z, σ[p.2]? = some p.1) (x : List ℝ) (hx : x.length = Z.length) :
    A.buildA (poolOf σ) (Z.map Prod.snd) x =
      .ok (((List.zip x (Z.map Prod.fst)).filter fun p => open Classical in decide (A.xThresh < |p.1|)).map fun p => (-Complex.I * A.db * p.1, p.2)) := by
  unfold buildA
  have key : ∀ (Z : List (Circuit × ℕ)) (y pre : List ℝ) (T : QubitOperator), (∀ p ∈ Z, σ[p.2]? = some p.1) → y.length = Z.length → x = pre ++ y →
      ((Z.map Prod.snd).zipIdx pre.length).foldlM (fun (T : QubitOperator) p => (do
        let xI ← (x[p.2]?).elim (.error .indexError) pure
        if open Classical in A.xThresh < |xI| then do
          let s ← ((poolOf σ)[p.1]?).elim (.error .indexError) pure
          let t ← (s.2[0]?).elim (.error .indexError) pure
          pure (T.addTerm (-Complex.I * A.db * xI) t.2)
        else pure T : Except Exc QubitOperator)) T =
        .ok (T ++ ((List.zip y (Z.map Prod.fst)).filter fun p => open Classical in decide (A.xThresh < |p.1|)).map fun p => (-Complex.I * A.db * p.1, p.2)) := by
    intro Z
    induction Z with
    | nil => intro y pre T _ hy _; obtain rfl := List.length_eq_zero_iff.1 hy; simp; rfl
    | cons z Z ih =>
      intro y pre T hZ hy hx
      cases y with
      | nil => simp at hy
      | cons a y =>
        have hxa : x[pre.length]? = some a := by rw [hx]; simp
        have hs : (poolOf σ)[z.2]? = some (1, [(1, z.1)]) := by unfold poolOf; rw [List.getElem?_map, hZ z (by simp)]; rfl
        have ih' := fun T => ih y (pre ++ [a]) T (fun p hp => hZ p (by simp [hp])) (by simpa using hy) (by rw [hx]; simp)
        rw [List.length_append, List.length_singleton] at ih'
        rw [List.map_cons, List.zipIdx_cons, List.foldlM_cons]
        simp only [hxa, Option.elim_some, pure, Except.pure, except_ok_bind]
        by_cases ht : A.xThresh < |a|
        · rw [if_pos ht, hs]
          simp only [Option.elim_some, Except.pure, except_ok_bind, List.getElem?_cons_zero]
          have := ih' (T.addTerm (-Complex.I * A.db * a) z.1)
          simp only [pure, Except.pure] at this
          erw [this]
          simp [ht, QubitOperator.addTerm]
        · rw [if_neg ht, except_ok_bind]
          have := ih' T
          simp only [pure, Except.pure] at this
          rw [this]
          simp [ht]
  have := key Z x [] [] hZ hx rfl
  simpa using this


/-! ### the step -/

theorem inner_comb2 (n : ℕ) (a b : ℂ) (φ φ' ψ ψ' : St) : inner n (a • φ + b • φ') (a • ψ + b • ψ') =
    (starRingEnd ℂ) a * a * inner n φ ψ + (starRingEnd ℂ) a * b * inner n φ ψ' + (starRingEnd ℂ) b * a * inner n φ' ψ + (starRingEnd ℂ) b * b * inner n φ' ψ' := by
  simp only [inner, Finset.mul_sum, ← Finset.sum_add_distrib]
  refine Finset.sum_congr rfl fun I _ => ?_
  simp only [Pi.add_apply, Pi.smul_apply, smul_eq_mul, map_add, map_mul]; ring

/-- the exponential of an imaginary multiple of a Pauli string is unitary -/
theorem pauliExp_unitary {n : ℕ} {c : Circuit} (hc : c.PauliString n) {z : ℂ} (hz : z.re = 0) {U : Op} (hU : IsExp (z • c.op) U) (φ ψ : St) :
    inner n (U φ) (U ψ) = inner n φ ψ := by
  have hP : c.op * c.op = 1 := ipauli_sq (trotterTerm_of hc).1
  rw [hU.unique (isExp_invol hP z)]
  obtain ⟨y, rfl⟩ : ∃ y : ℝ, z = y * Complex.I := ⟨z.im, by apply Complex.ext <;> simp [hz]⟩
  rw [Complex.cosh_mul_I, Complex.sinh_mul_I]
  show inner n (Complex.cos y • φ + (Complex.sin y * Complex.I) • c.op φ) (Complex.cos y • ψ + (Complex.sin y * Complex.I) • c.op ψ) = _
  rw [inner_comb2, ← pauli_herm hc φ ψ, inner_circuit hc.fits (string_unitary hc)]
  have h1 : (starRingEnd ℂ) (Complex.cos y) = Complex.cos y := by rw [← Complex.cos_conj, Complex.conj_ofReal]
  have h2 : (starRingEnd ℂ) (Complex.sin y * Complex.I) = -(Complex.sin y * Complex.I) := by
    rw [map_mul, ← Complex.sin_conj, Complex.conj_ofReal, Complex.conj_I]; ring
  rw [h1, h2]
  have h3 := Complex.sin_sq_add_cos_sq (y : ℂ)
  have h4 := Complex.I_sq
  linear_combination (inner n φ ψ) * h3 - (Complex.sin y) ^ 2 * (inner n φ ψ) * h4


theorem applyInOrder_unitary {n : ℕ} {Us : List Op} (h : ∀ U ∈ Us, ∀ φ ψ, inner n (U φ) (U ψ) = inner n φ ψ) (φ ψ : St) :
    inner n (applyInOrder Us φ) (applyInOrder Us ψ) = inner n φ ψ := by
  induction Us generalizing φ ψ with
  | nil => rfl
  | cons U Us ih =>
    rw [applyInOrder, Module.End.mul_apply, Module.End.mul_apply, ih (fun V hV => h V (by simp [hV])), h U (by simp)]

theorem pow_unitary {n : ℕ} {U : Op} (h : ∀ φ ψ, inner n (U φ) (U ψ) = inner n φ ψ) (k : ℕ) (φ ψ : St) : inner n ((U ^ k) φ) ((U ^ k) ψ) = inner n φ ψ := by
  induction k generalizing φ ψ with
  | zero => rfl
  | succ k ih => rw [pow_succ, Module.End.mul_apply, Module.End.mul_apply, ih, h]

/-- a Trotter step is unitary -/
theorem trotterState_norm {n : ℕ} {H : QubitOperator} (hH : ∀ t ∈ H, t.1.im = 0 ∧ t.2.PauliString n) {N : ℤ} {τ : ℝ} {Φ χ : St}
    (h : TrotterState H N τ Φ χ) : inner n χ χ = inner n Φ Φ := by
  obtain ⟨Us, h1, rfl⟩ := h
  refine pow_unitary (fun φ ψ => applyInOrder_unitary ?_ φ ψ) _ _ _
  intro U hU
  obtain ⟨t, ht, hx⟩ := forall2_mem_right h1 hU
  refine pauliExp_unitary (hH t ht).2 ?_ hx
  have := (hH t ht).1
  rw [show (N : ℂ) = ((N : ℝ) : ℂ) by push_cast; rfl, Complex.div_ofReal_re]
  simp [this]

/-- how `direct_op_exp_val` may have been compiled: serially, or with threads if all strings of the Hamiltonian have an even number of Y -/
def GoodBuild (A : QiteAlg) (par : Option Schedule) : Prop := par = none ∨ (1 ≤ A.nqb ∧ ∀ t ∈ A.ham, Even t.2.numY)

theorem expVal_any {A : QiteAlg} (hA : A.Ready) {par : Option Schedule} (hp : A.GoodBuild par) {q : Computer} (hq : q.WF) (hn : q.nqubit = A.nqb) :
    ∃ q', q.directOpExpVal par A.ham = .ok (inner A.nqb q.psi (A.ham.op q.psi), q') ∧ SameState q q' := by
  cases par with
  | none =>
    obtain ⟨q', e, h⟩ := C29_direct_op q A.ham hq (fun t ht => by
      have := (hA.ham t ht).2
      rw [hn]
      exact ⟨this.fits, fun g hg => (this.gates g hg).exact⟩)
    exact ⟨q', by rw [e, hn], h⟩
  | some sch =>
    obtain ⟨h0, hY⟩ := hp.resolve_left (by simp)
    refine ⟨q, ?_, .refl hq⟩
    have key : ∀ (l : QubitOperator) (r : ℂ), (∀ t ∈ l, t ∈ A.ham) → l.foldlM (fun r t => (do
        let v ← q.directPauliCircExpVal sch t.2
        pure (r + t.1 * v) : Except Exc ℂ)) r = .ok (r + (l.map fun t => t.1 * inner A.nqb q.psi (t.2.op q.psi)).sum) := by
      intro l
      induction l with
      | nil => intro r _; simp; rfl
      | cons t l ih =>
        intro r hl
        have ht := hl t (by simp)
        have e := C30_direct_pauli_partial q sch t.2 hq (by rw [hn]; exact h0) (by rw [hn]; exact (hA.ham t ht).2) (hY t ht)
        rw [List.foldlM_cons]
        simp only [e, except_ok_bind, pure, Except.pure]
        have := ih (r + t.1 * inner q.nqubit q.psi (t.2.op q.psi)) (fun u hu => hl u (by simp [hu]))
        simp only [pure, Except.pure] at this
        rw [this, List.map_cons, List.sum_cons, hn, add_assoc]
    unfold Computer.directOpExpVal
    simp only
    rw [key A.ham 0 (fun t h => h), except_ok_bind, zero_add, ← inner_op]
    rfl

theorem sparse_sub {A : QiteAlg} {σ : List Circuit} {ψ : St} : ∀ c ∈ A.chosen σ ψ, c ∈ σ := by
  intro c hc
  unfold chosen at hc
  split_ifs at hc
  · simp at hc
  · exact (List.mem_filter.1 hc).1
  · exact hc

/-- one step of QITE from a normalised state -/
theorem step_ok {A : QiteAlg} (hA : A.Ready) {ls : LstsqOracle} (hls : IsLstsq ls) {par : Option Schedule} (hp : A.GoodBuild par) (hdb : A.db ≠ 0)
    {σ : List Circuit} (hσ : ∀ c ∈ σ, c.PauliString A.nqb) {st : QiteState} (hq : st.qc.WF) (hn : st.qc.nqubit = A.nqb) (h1 : inner A.nqb st.qc.psi st.qc.psi = 1)
    (hE : st.ekb.getLast? = some (energy A.nqb A.ham.op st.qc.psi))
    (hc : 0 < 1 - 2 * A.db * energy A.nqb A.ham.op st.qc.psi ∨ A.sparseSb = true ∨ σ = []) :
    ∃ st' x C ph, A.step ls par (poolOf σ) st = .ok st' ∧ IsStep A σ st.qc.psi (ph • st'.qc.psi) x ∧ ‖ph‖ = 1 ∧ st'.qc.WF ∧ st'.qc.nqubit = A.nqb ∧
      inner A.nqb st'.qc.psi st'.qc.psi = 1 ∧ st'.ekb = st.ekb ++ [energy A.nqb A.ham.op st'.qc.psi] ∧ st'.uqite = st.uqite ++ C ∧
      C.Fits A.nqb ∧ (∀ g ∈ C, ApiGate g ∧ ExactGate g) ∧ st'.qc.psi = C.op st.qc.psi ∧ st'.phase = st.phase * ph ∧
      st'.nParams = st.nParams + (A.kept (A.chosen σ st.qc.psi) x).length ∧ st'.nCnot = st.nCnot + C.getNumCnots ∧
      st'.nMeas = st.nMeas + A.ham.length * σ.length + (A.chosen σ st.qc.psi).length * ((A.chosen σ st.qc.psi).length + 1) / 2 ∧
      st'.lvecs = st.lvecs ∧ st'.hlvecs = st.hlvecs := by
  set ψ := st.qc.psi with hψ
  have eb := buildB_ok hA hq hn σ hσ
  obtain ⟨Z, z1, z2, z3⟩ := selected_ok (A := A) (σ := σ) (ψ := ψ) hc
  have hch : ∀ c ∈ A.chosen σ ψ, c.PauliString A.nqb := fun c hc => hσ c (sparse_sub c hc)
  obtain ⟨S, eS, hS⟩ := gram_ok hq hn h1 (A.chosen σ ψ) hch
  have hk : Z.length = (A.chosen σ ψ).length := by rw [← z2, List.length_map]
  obtain ⟨x1, x2⟩ := lstsq_solves hls (n := A.nqb) (H := A.ham.op) (db := A.db) (ψ := ψ) hch hdb hS
  set x := ls (A.chosen σ ψ).length S ((A.chosen σ ψ).map (rhsElem A.nqb A.ham.op A.db ψ)) with hx
  have eA := buildA_ok (A := A) Z z1 x (by rw [x1, hk])
  rw [z2] at eA
  set T : QubitOperator := ((List.zip x (A.chosen σ ψ)).filter fun p => open Classical in decide (A.xThresh < |p.1|)).map fun p => (-Complex.I * A.db * p.1, p.2) with hT
  have memT : ∀ t ∈ T, ∃ a : ℝ, t.1 = -Complex.I * A.db * a ∧ t.2 ∈ A.chosen σ ψ := by
    intro t ht
    obtain ⟨p, hp, rfl⟩ := List.mem_map.1 ht
    exact ⟨p.1, rfl, (List.of_mem_zip (List.mem_filter.1 hp).1).2⟩
  obtain ⟨C, ph, Us, t1, t2, t3, t4⟩ := trotterize_fits A.nqb T 1 A.trotterNumber 1 le_rfl hA.steps
    (fun t ht => by obtain ⟨a, _, h⟩ := memT t ht; exact trotterTerm_of (hch _ h))
    (fun t ht g hg => by obtain ⟨a, _, h⟩ := memT t ht; exact ((hch _ h).fits g hg).1)
    (fun t ht => by obtain ⟨a, h, _⟩ := memT t ht; rw [h]; simp)
  have fC : C.Fits A.nqb := fun g hg => (t4 g hg).2
  obtain ⟨q, e2, w2, n2, p2⟩ := applyCircuit_exact C hq (by rw [hn]; exact fC) (fun g hg => (t4 g hg).1.2)
  rw [hn] at n2
  obtain ⟨q', e3, s3⟩ := expVal_any hA hp w2 n2
  have p3 : q'.psi = q.psi := by unfold Computer.psi; rw [s3.coeff]
  have tr : TrotterState (A.kept (A.chosen σ ψ) x) A.trotterNumber A.db ψ (ph • q'.psi) := by
    refine ⟨Us, ?_, ?_⟩
    · unfold kept
      rw [hT, List.forall₂_map_left_iff] at t2
      rw [List.forall₂_map_left_iff]
      refine t2.imp fun p U h => ?_
      convert! h using 3
      ring
    · rw [p3, p2, ← t3]; rfl
  have hkept : ∀ t ∈ A.kept (A.chosen σ ψ) x, t.1.im = 0 ∧ t.2.PauliString A.nqb := by
    intro t ht
    obtain ⟨p, hp, rfl⟩ := List.mem_map.1 ht
    exact ⟨by simp, hch _ (List.of_mem_zip (List.mem_filter.1 hp).1).2⟩
  have n1 : inner A.nqb q'.psi q'.psi = 1 := by
    rw [p3, p2, inner_circuit fC (fun g hg => C02_unitary (t4 g hg).1.1), h1]
  have hph : ‖ph‖ = 1 := by
    have := trotterState_norm hkept tr
    rw [h1, inner_smul_left', inner_smul_right, n1, mul_one, mul_comm, Complex.mul_conj] at this
    have h2 : Complex.normSq ph = 1 := by exact_mod_cast this
    rw [Complex.normSq_eq_norm_sq] at h2
    exact (pow_eq_one_iff_of_nonneg (norm_nonneg _) two_ne_zero).1 h2
  have es : A.step ls par (poolOf σ) st = .ok { st with
      uqite := st.uqite.addCircuit C
      qc := q'
      ekb := st.ekb ++ [energy A.nqb A.ham.op q.psi]
      phase := st.phase * ph
      nParams := st.nParams + T.length
      nCnot := st.nCnot + C.getNumCnots
      nMeas := st.nMeas + A.ham.length * (poolOf σ).length + Z.length * (Z.length + 1) / 2 } := by
    unfold step
    rw [hE]
    simp only [Option.elim_some, pure, Except.pure, except_ok_bind]
    rw [eb, except_ok_bind, z3, except_ok_bind]
    rw [mapM_ok _ (fun p : ℕ × ℝ => ((1 : ℂ), ([((1 : ℂ), σ.getD p.1 [])] : QubitOperator))) _ (fun p hp => by
      obtain ⟨z, hz, rfl⟩ := List.mem_map.1 hp
      have : (poolOf σ)[z.2]? = some (1, [(1, z.1)]) := by unfold poolOf; rw [List.getElem?_map, z1 z hz]; rfl
      rw [this]
      simp only [Option.elim_some]
      rw [List.getD_eq_getElem?_getD, z1 z hz]; rfl), except_ok_bind, List.map_map, List.map_map]
    have ho : Z.map ((Prod.snd ∘ fun p : ℕ × ℝ => ((1 : ℂ), ([((1 : ℂ), σ.getD p.1 [])] : QubitOperator))) ∘ fun p => (p.2, rhsElem A.nqb A.ham.op A.db ψ p.1)) =
        (A.chosen σ ψ).map fun c => [(1, c)] := by
      rw [← z2, List.map_map]
      refine List.map_congr_left fun z hz => ?_
      simp only [Function.comp]
      rw [List.getD_eq_getElem?_getD, z1 z hz]; rfl
    rw [ho, eS, except_ok_bind]
    have hb : (Z.map fun p => (p.2, rhsElem A.nqb A.ham.op A.db ψ p.1)).map Prod.snd = (A.chosen σ ψ).map (rhsElem A.nqb A.ham.op A.db ψ) := by
      rw [← z2, List.map_map, List.map_map]; rfl
    have hi : (Z.map fun p => (p.2, rhsElem A.nqb A.ham.op A.db ψ p.1)).map Prod.fst = Z.map Prod.snd := by
      rw [List.map_map]; rfl
    rw [hb, hi, List.length_map, hk, ← hx, eA, except_ok_bind, t1, except_ok_bind]
    simp only [e2, except_ok_bind, e3]
    rfl
  refine ⟨_, x, C, ph, es, ⟨nearest_of_solves hch hdb x1 x2, x2, tr⟩, hph, s3.wf, by rw [← n2]; exact s3.nqubit, n1, ?_, addCircuit_eq _ _, fC, fun g hg => (t4 g hg).1, ?_, rfl, ?_, rfl, ?_, rfl, rfl⟩
  · show _ ++ [_] = _ ++ [_]; rw [p3]
  · show q'.psi = _; rw [p3, p2]
  · show st.nParams + T.length = _
    unfold kept; rw [hT, List.length_map, List.length_map]
  · show _ + A.ham.length * (poolOf σ).length + Z.length * (Z.length + 1) / 2 = _
    rw [hk]; unfold poolOf; rw [List.length_map]

end QiteAlg
end QF
