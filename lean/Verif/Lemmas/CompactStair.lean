import Verif.Lemmas.CompactExc

/-! The CNOT staircase of `fermion_sign_circuit`. -/
namespace QF

def chainC : List ℕ → Circuit
  | i :: j :: l => gCNOT j i :: chainC (j :: l)
  | _ => []

def stairL : List ℕ → ℕ → ℕ
  | i :: j :: l, J => stairL (j :: l) (fan i [j] J)
  | _, J => J
def stairK : List ℕ → ℕ → ℕ
  | i :: j :: l, J => fan i [j] (stairK (j :: l) J)
  | _, J => J

/-- parity of the bits `l` of `I` -/
def par (l : List ℕ) (I : ℕ) : Bool := l.foldr (fun i b => xor (I.testBit i) b) false

@[simp] theorem par_nil (I : ℕ) : par [] I = false := rfl
@[simp] theorem par_cons (i : ℕ) (l : List ℕ) (I : ℕ) : par (i :: l) I = xor (I.testBit i) (par l I) := rfl

theorem par_congr {l : List ℕ} {I J : ℕ} (h : ∀ q ∈ l, I.testBit q = J.testBit q) : par l I = par l J := by
  induction l with
  | nil => rfl
  | cons i l ih => rw [par_cons, par_cons, h i (by simp), ih (fun q hq => h q (by simp [hq]))]

theorem chainC_apply : ∀ (l : List ℕ), l.Nodup → ∀ (ψ : St) (I : ℕ), Circuit.op (chainC l) ψ I = ψ (stairK l I)
  | [], _, _, _ => by simp [chainC, stairK]
  | [i], _, _, _ => by simp [chainC, stairK]
  | i :: j :: l, h, ψ, I => by
    rw [List.nodup_cons] at h
    have hne : j ≠ i := fun e => h.1 (by simp [e])
    rw [chainC, Circuit.op_cons, Module.End.mul_apply, chainC_apply (j :: l) h.2, cnot_apply hne, stairK]

theorem stairK_stairL : ∀ (l : List ℕ), l.Nodup → ∀ J, stairK l (stairL l J) = J
  | [], _, _ => rfl
  | [i], _, _ => rfl
  | i :: j :: l, h, J => by
    rw [List.nodup_cons] at h
    have hne : i ≠ j := fun e => h.1 (by simp [e])
    rw [stairL, stairK, stairK_stairL (j :: l) h.2, fan_fan (List.nodup_singleton j) (by simpa using hne)]

theorem stairL_other : ∀ (l : List ℕ) (J q : ℕ), q ∉ l → (stairL l J).testBit q = J.testBit q
  | [], _, _, _ => rfl
  | [i], _, _, _ => rfl
  | i :: j :: l, J, q, h => by
    rw [List.mem_cons, not_or] at h
    have hj : q ≠ j := fun e => h.2 (by simp [e])
    rw [stairL, stairL_other (j :: l) _ q h.2, testBit_fan (List.nodup_singleton j)]
    simp [hj]

theorem stairK_flip : ∀ (l : List ℕ) {fl : List ℕ}, fl.Nodup → (∀ x ∈ fl, x ∉ l) → ∀ J, stairK l (flipAll fl J) = flipAll fl (stairK l J)
  | [], _, _, _, _ => rfl
  | [i], _, _, _, _ => rfl
  | i :: j :: l, fl, hn, h, J => by
    rw [stairK, stairK_flip (j :: l) hn (fun x hx hx' => h x hx (by simp only [List.mem_cons] at hx' ⊢; tauto)), stairK]
    have hi : i ∉ fl := fun hx => h i hx (by simp)
    apply eq_of_bits; intro q
    rw [testBit_fan (List.nodup_singleton j), testBit_flipAll hn, testBit_flipAll hn, testBit_flipAll hn, testBit_fan (List.nodup_singleton j)]
    simp [hi, Bool.xor_comm, Bool.xor_left_comm]

theorem stairL_last : ∀ (l : List ℕ) (h : l ≠ []), l.Nodup → ∀ J, (stairL l J).testBit (l.getLast h) = par l J
  | [i], _, _, J => by simp [stairL, par]
  | i :: j :: l, _, hn, J => by
    rw [List.nodup_cons] at hn
    have hj : j ∉ l := (List.nodup_cons.1 hn.2).1
    rw [stairL, List.getLast_cons (by simp), stairL_last (j :: l) (by simp) hn.2, par_cons, par_cons, par_cons]
    rw [par_congr (l := l) (J := J), testBit_fan (List.nodup_singleton j)]
    · simp [Bool.xor_comm, Bool.xor_left_comm]
    · intro q hq
      have : q ≠ j := fun e => hj (e ▸ hq)
      rw [testBit_fan (List.nodup_singleton j)]; simp [this]

theorem chainC_on {s : List ℕ} : ∀ (l : List ℕ), l.Nodup → l ⊆ s → (chainC l).On s
  | [], _, _ => by intro g hg; cases hg
  | [i], _, _ => by intro g hg; cases hg
  | i :: j :: l, h, hs => by
    rw [List.nodup_cons] at h
    have hne : j ≠ i := fun e => h.1 (by simp [e])
    rw [chainC]
    have h1 := on_CNOT (s := s) hne (hs (by simp)) (hs (by simp))
    have h2 := chainC_on (s := s) (j :: l) h.2 (fun x hx => hs (by simp only [List.mem_cons] at hx ⊢; tauto))
    exact Circuit.On.append (c := [gCNOT j i]) h1 h2

theorem cz_apply {t c : ℕ} (h : t ≠ c) (φ : St) (I : ℕ) : (gCZ t c).op φ I = (if I.testBit t && I.testBit c then -1 else 1) * φ I := by
  rw [op_gCZ h, ctrlOp_apply, opZ_apply]
  cases I.testBit t <;> cases I.testBit c <;> simp

/-- the staircase as a list of gates -/
def stairC (c0 : ℕ) (idx : List ℕ) : Circuit :=
  if h : idx = [] then [] else chainC idx ++ [gCZ c0 (idx.getLast h)]

/-- sign of a parity -/
def psign (b : Bool) : ℂ := if b then -1 else 1

theorem stairC_on {c0 : ℕ} {idx : List ℕ} (hn : idx.Nodup) (hc : c0 ∉ idx) : (stairC c0 idx).On (c0 :: idx) := by
  unfold stairC
  split_ifs with h
  · intro g hg; cases hg
  · refine Circuit.On.append (chainC_on idx hn (List.subset_cons_self _ _)) ?_
    intro g hg
    rw [List.mem_singleton.1 hg]
    have hne : c0 ≠ idx.getLast h := fun e => hc (e ▸ List.getLast_mem h)
    exact ⟨.make (make_CZ hne 0), by simp [gCZ], by simp [gCZ]⟩

theorem stair_conj {c0 : ℕ} {idx : List ℕ} (hn : idx.Nodup) {D fl : List ℕ} (hD : ∀ x ∈ D, x ∉ idx) (hfl : fl.Nodup)
    (hsub : fl ⊆ D) (hc0 : c0 ∈ fl) {E : Op} {P : ℕ → Prop} [DecidablePred P] (hP : ∀ I J, (∀ q ∈ D, I.testBit q = J.testBit q) → (P I ↔ P J))
    {A B : ℂ} (hE : ∀ ψ I, E ψ I = if P I then A * ψ I + (if I.testBit c0 then B else -B) * ψ (flipAll fl I) else ψ I) (ψ : St) (I : ℕ) :
    ((stairC c0 idx).adjoint.op * (E * (stairC c0 idx).op)) ψ I =
      if P I then A * ψ I + (if I.testBit c0 then B else -B) * (psign (par idx I) * ψ (flipAll fl I)) else ψ I := by
  have hc : c0 ∉ idx := hD c0 (hsub hc0)
  by_cases hne : idx = []
  · subst hne
    simp [stairC, Circuit.adjoint, hE, psign]
  have hon := stairC_on hn hc
  have hl : c0 ≠ idx.getLast hne := fun e => hc (e ▸ List.getLast_mem hne)
  set z : ℕ → ℂ := fun I => if I.testBit c0 && I.testBit (idx.getLast hne) then -1 else 1 with hz
  have hS : ∀ (ψ : St) (I : ℕ), (stairC c0 idx).op ψ I = z I * ψ (stairK idx I) := by
    intro ψ I
    unfold stairC
    rw [dif_neg hne, Circuit.op_append]
    simp only [Circuit.op_cons, Circuit.op_nil, one_mul]
    rw [Module.End.mul_apply, cz_apply hl, chainC_apply idx hn]
  have hzz : ∀ I, z I * z I = 1 := by intro I; simp only [hz]; split_ifs <;> norm_num
  have hinv := (circuit_adjoint_op (fun g hg => (hon g hg).1)).2
  have hSd : ∀ (φ : St) (I : ℕ), (stairC c0 idx).adjoint.op φ I = z (stairL idx I) * φ (stairL idx I) := by
    intro φ I
    have e := hS ((stairC c0 idx).adjoint.op φ) (stairL idx I)
    rw [stairK_stairL idx hn, ← Module.End.mul_apply, hinv, Module.End.one_apply] at e
    rw [e, ← mul_assoc, hzz, one_mul]
  rw [Module.End.mul_apply, hSd, Module.End.mul_apply, hE, hS, hS, stairK_stairL idx hn,
    stairK_flip idx hfl (fun x hx => hD x (hsub hx)), stairK_stairL idx hn]
  have hPP : P (stairL idx I) ↔ P I := hP _ _ (fun q hq => stairL_other idx I q (hD q hq))
  have hb : (stairL idx I).testBit c0 = I.testBit c0 := stairL_other idx I c0 hc
  have hlast : (stairL idx I).testBit (idx.getLast hne) = par idx I := stairL_last idx hne hn I
  rw [if_congr hPP rfl rfl, hb]
  have hzf : z (stairL idx I) * z (flipAll fl (stairL idx I)) = psign (par idx I) := by
    simp only [hz]
    have hgl : idx.getLast hne ∉ fl := fun hx => hD _ (hsub hx) (List.getLast_mem hne)
    rw [testBit_flipAll hfl, testBit_flipAll hfl, hb, hlast]
    simp only [hc0, hgl, decide_true, decide_false, Bool.xor_true, Bool.xor_false]
    cases I.testBit c0 <;> cases par idx I <;> simp [psign]
  split_ifs
  · linear_combination (A * ψ I) * hzz (stairL idx I) + (B * ψ (flipAll fl I)) * hzf
  · linear_combination (A * ψ I) * hzz (stairL idx I) - (B * ψ (flipAll fl I)) * hzf
  · linear_combination (ψ I) * hzz (stairL idx I)

/-! ### `fermion_sign_circuit` -/

theorem chainC_range : ∀ l : List ℕ, (List.range (l.length - 1)).map (fun i => gCNOT (l.getD (i + 1) 0) (l.getD i 0)) = chainC l
  | [] => rfl
  | [i] => rfl
  | i :: j :: l => by
    have ih := chainC_range (j :: l)
    have e : (i :: j :: l).length - 1 = ((j :: l).length - 1) + 1 := by simp
    rw [e, List.range_succ_eq_map, List.map_cons, List.map_map, chainC, ← ih]
    simp [Function.comp_def]

/-- the positions whose Z operators survive, in decreasing order -/
def signIdx (cre ann : List ℕ) : List ℕ :=
  ((List.range ((cre ++ ann).foldr max 0 + 1)).filter (signColumn (cre ++ ann))).reverse

theorem signIdx_nodup (cre ann : List ℕ) : (signIdx cre ann).Nodup := by
  unfold signIdx; exact List.nodup_reverse.2 (List.nodup_range.filter _)

theorem signIdx_not_mem {cre ann : List ℕ} {x : ℕ} (h : x ∈ cre ++ ann) : x ∉ signIdx cre ann := by
  unfold signIdx
  intro hx
  have := (List.mem_filter.1 (List.mem_reverse.1 hx)).2
  simp [signColumn, h] at this

theorem max?_foldr : ∀ (l : List ℕ), l ≠ [] → l.max? = some (l.foldr max 0)
  | [], h => absurd rfl h
  | [a], _ => by simp
  | a :: b :: l, _ => by
    have ih := max?_foldr (b :: l) (by simp)
    rw [List.max?_cons, ih]; rfl

theorem signIndices_ok {cre ann : List ℕ} (h : cre ++ ann ≠ []) : signIndices cre ann = .ok (signIdx cre ann) := by
  unfold signIndices; rw [max?_foldr _ h]; rfl

theorem fermionSign_ok {c0 : ℕ} {cs ann : List ℕ} : fermionSignCircuit (c0 :: cs) ann = .ok (stairC c0 (signIdx (c0 :: cs) ann)) := by
  unfold fermionSignCircuit
  rw [signIndices_ok (by simp), except_ok_bind]
  have hn := signIdx_nodup (c0 :: cs) ann
  have hc : c0 ∉ signIdx (c0 :: cs) ann := signIdx_not_mem (by simp)
  generalize signIdx (c0 :: cs) ann = idx at hn hc ⊢
  unfold stairC
  by_cases he : idx = []
  · rw [if_pos he, dif_pos he]; rfl
  · rw [if_neg he, dif_neg he]
    have hlen : 0 < idx.length := List.length_pos_iff.2 he
    have e1 := foldlM_addGates (fun c i => do
      let t ← pyIndex idx (i + 1)
      let s ← pyIndex idx i
      let g ← pyGate2 "CNOT" t s
      pure (Circuit.addGate c g)) (fun i => [gCNOT (idx.getD (i + 1) 0) (idx.getD i 0)]) (List.range (idx.length - 1)) (by
        intro i hi c
        have hi := List.mem_range.1 hi
        have h1 : i + 1 < idx.length := by omega
        have h2 : i < idx.length := by omega
        have hne : idx[i + 1] ≠ idx[i] := by
          intro e; have := (List.Nodup.getElem_inj_iff hn).1 e; omega
        simp only [pyIndex, List.getElem?_eq_getElem h1, List.getElem?_eq_getElem h2, except_ok_bind]
        rw [py_CNOT hne, except_ok_bind]
        simp [Circuit.addGate, pure, Except.pure, h1, h2]) []
    rw [e1, except_ok_bind, List.nil_append, ← List.map_eq_flatMap, chainC_range]
    have h3 : idx.length - 1 < idx.length := by omega
    have hl : c0 ≠ idx.getLast he := fun e => hc (e ▸ List.getLast_mem he)
    have e4 : idx[idx.length - 1] = idx.getLast he := (List.getLast_eq_getElem he).symm
    simp only [pyIndex, List.getElem?_cons_zero, List.getElem?_eq_getElem h3, except_ok_bind, e4]
    rw [py_CZ hl, except_ok_bind]
    rfl

end QF
