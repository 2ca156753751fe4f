import Verif.Lemmas.SimpStep

/-! The loops of `Circuit::simplify`. -/
namespace QF

/-- product of the factors `f i`, later indices act later -/
def prodOn (f : ℕ → Op) : List ℕ → Op
  | [] => 1
  | i :: l => prodOn f l * f i

theorem prodOn_append (f : ℕ → Op) (l l' : List ℕ) : prodOn f (l ++ l') = prodOn f l' * prodOn f l := by
  induction l with
  | nil => simp [prodOn]
  | cons i l ih => simp [prodOn, ih, mul_assoc]

theorem prodOn_congr {f f' : ℕ → Op} {l : List ℕ} (h : ∀ i ∈ l, f i = f' i) : prodOn f l = prodOn f' l := by
  induction l with
  | nil => rfl
  | cons i l ih =>
    simp only [prodOn]
    rw [h i (by simp), ih fun j hj => h j (by simp [hj])]

theorem prodOn_map (f : ℕ → Op) (h : ℕ → ℕ) (l : List ℕ) : prodOn f (l.map h) = prodOn (f ∘ h) l := by
  induction l with
  | nil => rfl
  | cons i l ih => simp [prodOn, ih]

open Classical in
/-- the factor of position `i`: the gate there, unless the position is to be removed -/
noncomputable def fac (gs : Circuit) (rem : List ℕ) (i : ℕ) : Op :=
  if i ∈ rem then 1 else ((gs[i]?).map Gate.op).getD 1

theorem op_eq_prodOn (c : Circuit) : Circuit.op c = prodOn (fac c []) (List.range c.length) := by
  induction c using List.reverseRecOn with
  | nil => simp [prodOn]
  | append_singleton c g ih =>
    have h : prodOn (fac (c ++ [g]) []) (List.range c.length) = prodOn (fac c []) (List.range c.length) := by
      apply prodOn_congr
      intro i hi
      rw [List.mem_range] at hi
      simp only [fac, List.not_mem_nil, if_false]
      rw [List.getElem?_append_left hi]
    rw [List.length_append, List.length_singleton, List.range_succ, prodOn_append, h, ← ih, Circuit.op_append]
    simp [prodOn, fac]

theorem range_split {p n : ℕ} (h : p < n) :
    List.range n = List.range p ++ p :: (List.range (n - 1 - p)).map (· + (p + 1)) := by
  obtain ⟨d, rfl⟩ : ∃ d, n = p + (d + 1) := ⟨n - 1 - p, by omega⟩
  rw [List.range_add, show p + (d + 1) - 1 - p = d by omega, List.range_succ_eq_map]
  simp only [List.map_cons, List.map_map, add_zero, List.append_cancel_left_eq, List.cons.injEq, true_and]
  apply List.map_congr_left
  intro a _; simp; omega

theorem erase_op (l : List ℕ) : ∀ (gs : Circuit), l.Pairwise (· > ·) → (∀ p ∈ l, p < gs.length) →
    Circuit.op (l.foldl (fun gs p => gs.eraseIdx p) gs) = prodOn (fac gs l) (List.range gs.length) := by
  induction l with
  | nil => intro gs _ _; exact op_eq_prodOn gs
  | cons p rest ih =>
    intro gs hl hlt
    rw [List.pairwise_cons] at hl
    have hp : p < gs.length := hlt p (by simp)
    have hlen : (gs.eraseIdx p).length = gs.length - 1 := List.length_eraseIdx_of_lt hp
    rw [List.foldl_cons, ih (gs.eraseIdx p) hl.2 (fun q hq => by have := hl.1 q hq; rw [hlen]; omega), hlen]
    have hr : List.range (gs.length - 1) = List.range p ++ (List.range (gs.length - 1 - p)).map (· + p) := by
      obtain ⟨d, hd⟩ : ∃ d, gs.length - 1 = p + d := ⟨gs.length - 1 - p, by omega⟩
      rw [hd, List.range_add, show p + d - p = d by omega]
      congr 1
      apply List.map_congr_left; intro a _; omega
    rw [hr, range_split hp, prodOn_append, prodOn_append, prodOn_map]
    simp only [prodOn]
    rw [prodOn_map]
    have hfp : fac gs (p :: rest) p = 1 := by simp [fac]
    rw [hfp, mul_one]
    congr 1
    · apply prodOn_congr
      intro i hi
      rw [List.mem_range] at hi
      have h1 : i + p ∉ rest := fun h => by have := hl.1 _ h; omega
      have h2 : i + (p + 1) ∉ p :: rest := by
        rw [List.mem_cons]; rintro (h | h)
        · omega
        · have := hl.1 _ h; omega
      simp only [Function.comp, fac, h1, h2, if_false]
      rw [List.getElem?_eraseIdx_of_ge (by omega)]
      rfl
    · apply prodOn_congr
      intro i hi
      rw [List.mem_range] at hi
      simp only [fac, List.mem_cons, show ¬ i = p by omega, false_or]
      rw [List.getElem?_eraseIdx_of_lt hi]

/-- invariant of the loops: `W` is the operator of the circuit without the gates to be removed -/
structure SInv (P : Gate → Prop) (n : ℕ) (W : Op) (s : Circuit × List ℕ) : Prop where
  len : s.1.length = n
  nodup : s.2.Nodup
  lt : ∀ r ∈ s.2, r < n
  gates : ∀ g ∈ s.1, P g
  prod : prodOn (fac s.1 s.2) (List.range n) = W

/-- `P` holds of gates with known semantics and is preserved by merging -/
structure GoodP (P : Gate → Prop) : Prop where
  sem : ∀ g, P g → Sem g
  merge : ∀ g1 g2 g, P g1 → P g2 → simpStep g1 g2 = .ok (.merge g) → P g

theorem range_split3 {p k n : ℕ} (hp : p < k) (hk : k < n) :
    List.range n = List.range p ++ p :: (List.range' (p + 1) (k - (p + 1)) ++ k :: List.range' (k + 1) (n - (k + 1))) := by
  obtain ⟨d, rfl⟩ : ∃ d, k = p + 1 + d := ⟨k - (p + 1), by omega⟩
  obtain ⟨e, rfl⟩ : ∃ e, n = p + 1 + d + 1 + e := ⟨n - (p + 1 + d + 1), by omega⟩
  rw [show p + 1 + d - (p + 1) = d by omega, show p + 1 + d + 1 + e - (p + 1 + d + 1) = e by omega,
    List.range_eq_range', List.range_eq_range', ← List.range'_succ, List.range'_append_1, ← List.range'_succ]
  have := List.range'_append_1 (s := 0) (m := p) (n := d + (e + 1) + 1)
  rw [zero_add] at this
  rw [this]
  congr 1; omega

theorem inner_inv {P : Gate → Prop} (hP : GoodP P) {n : ℕ} {W : Op} {g1 : Gate} {pos1 : ℕ} :
    ∀ (m k : ℕ) (s s' : Circuit × List ℕ), k + m = n → pos1 < k → SInv P n W s → pos1 ∉ s.2 → s.1[pos1]? = some g1 →
    Commute g1.op (prodOn (fac s.1 s.2) (List.range' (pos1 + 1) (k - (pos1 + 1)))) →
    simpInner g1 pos1 (List.range' k m) s = .ok s' → SInv P n W s' := by
  intro m
  induction m with
  | zero =>
    intro k s s' _ _ hs _ _ _ h
    simp only [List.range'_zero, simpInner] at h
    cases h; exact hs
  | succ m ih =>
    intro k s s' hk hpk hs hp1 hg1 hcomm h
    rw [List.range'_succ] at h
    have hext : List.range' (pos1 + 1) (k + 1 - (pos1 + 1)) = List.range' (pos1 + 1) (k - (pos1 + 1)) ++ [k] := by
      rw [show k + 1 - (pos1 + 1) = k - (pos1 + 1) + 1 by omega, ← List.range'_append_1,
        show pos1 + 1 + (k - (pos1 + 1)) = k by omega]
      rfl
    have hcext : Commute g1.op (fac s.1 s.2 k) →
        Commute g1.op (prodOn (fac s.1 s.2) (List.range' (pos1 + 1) (k + 1 - (pos1 + 1)))) := by
      intro hc
      rw [hext, prodOn_append]
      simp only [prodOn, one_mul]
      exact hc.mul_right hcomm
    unfold simpInner at h
    by_cases hmem : k ∈ s.2
    · rw [if_pos hmem] at h
      refine ih (k + 1) s s' (by omega) (by omega) hs hp1 hg1 (hcext ?_) h
      simp only [fac, hmem, if_true]; exact Commute.one_right _
    rw [if_neg hmem] at h
    rcases hg2 : s.1[k]? with _ | g2
    · rw [hg2] at h; cases h
    rw [hg2] at h
    simp only at h
    rcases hst : simpStep g1 g2 with e | r
    · rw [hst] at h; cases h
    rw [hst, except_ok_bind] at h
    have hP1 : P g1 := hs.gates _ (List.mem_of_getElem? hg1)
    have hP2 : P g2 := hs.gates _ (List.mem_of_getElem? hg2)
    have hok := simpStep_sound (hP.sem _ hP1) (hP.sem _ hP2) hst
    have hf1 : fac s.1 s.2 pos1 = g1.op := by simp [fac, hp1, hg1]
    have hf2 : fac s.1 s.2 k = g2.op := by simp [fac, hmem, hg2]
    have hprod := hs.prod
    rw [range_split3 hpk (by omega : k < n)] at hprod
    simp only [prodOn_append, prodOn, hf1, hf2] at hprod
    have hnd : (s.2 ++ [pos1]).Nodup := by
      rw [List.nodup_append]
      refine ⟨hs.nodup, by simp, ?_⟩
      intro a ha b hb
      simp only [List.mem_singleton] at hb
      subst hb
      exact fun e => hp1 (e ▸ ha)
    have hB : ∀ i ∈ List.range pos1, i ≠ pos1 ∧ i ≠ k := fun i hi => by
      rw [List.mem_range] at hi; omega
    have hM : ∀ i ∈ List.range' (pos1 + 1) (k - (pos1 + 1)), i ≠ pos1 ∧ i ≠ k := fun i hi => by
      rw [List.mem_range'_1] at hi; omega
    have hT : ∀ i ∈ List.range' (k + 1) (n - (k + 1)), i ≠ pos1 ∧ i ≠ k := fun i hi => by
      rw [List.mem_range'_1] at hi; omega
    cases r with
    | next =>
      exact ih (k + 1) s s' (by omega) (by omega) hs hp1 hg1 (hcext (by rw [hf2]; exact hok)) h
    | stop =>
      cases h; exact hs
    | removeBoth =>
      cases h
      refine ⟨hs.len, ?_, ?_, hs.gates, ?_⟩
      · show (s.2 ++ [pos1, k]).Nodup
        rw [show s.2 ++ [pos1, k] = (s.2 ++ [pos1]) ++ [k] by simp, List.nodup_append]
        refine ⟨hnd, by simp, ?_⟩
        intro a ha b hb
        simp only [List.mem_singleton] at hb
        subst hb
        rintro rfl
        rcases List.mem_append.1 ha with h | h
        · exact hmem h
        · simp at h; omega
      · intro r hr
        rcases List.mem_append.1 hr with h | h
        · exact hs.lt r h
        · simp at h; omega
      · have hcg : ∀ i, i ≠ pos1 ∧ i ≠ k → fac s.1 (s.2 ++ [pos1, k]) i = fac s.1 s.2 i := by
          intro i hi
          simp [fac, hi.1, hi.2]
        rw [range_split3 hpk (by omega : k < n), ← hprod]
        simp only [prodOn_append, prodOn]
        rw [prodOn_congr (fun i hi => hcg i (hB i hi)), prodOn_congr (fun i hi => hcg i (hM i hi)),
          prodOn_congr (fun i hi => hcg i (hT i hi))]
        have e1 : fac s.1 (s.2 ++ [pos1, k]) pos1 = 1 := by simp [fac]
        have e2 : fac s.1 (s.2 ++ [pos1, k]) k = 1 := by simp [fac]
        rw [e1, e2]
        have hok' : g2.op * g1.op = 1 := hok
        simp only [mul_one]
        congr 1
        rw [mul_assoc _ _ g1.op, ← hcomm.eq, ← mul_assoc, mul_assoc _ g2.op g1.op, hok', mul_one]
    | merge g =>
      cases h
      have hk' : k < s.1.length := by rw [hs.len]; omega
      refine ⟨by rw [List.length_set]; exact hs.len, hnd, ?_, ?_, ?_⟩
      · intro r hr
        rcases List.mem_append.1 hr with h | h
        · exact hs.lt r h
        · simp at h; omega
      · intro x hx
        rcases List.mem_or_eq_of_mem_set hx with h | rfl
        · exact hs.gates x h
        · exact hP.merge g1 g2 x hP1 hP2 hst
      · have hcg : ∀ i, i ≠ pos1 ∧ i ≠ k → fac (s.1.set k g) (s.2 ++ [pos1]) i = fac s.1 s.2 i := by
          intro i hi
          simp [fac, hi.1, List.getElem?_set_ne hi.2.symm]
        rw [range_split3 hpk (by omega : k < n), ← hprod]
        simp only [prodOn_append, prodOn]
        rw [prodOn_congr (fun i hi => hcg i (hB i hi)), prodOn_congr (fun i hi => hcg i (hM i hi)),
          prodOn_congr (fun i hi => hcg i (hT i hi))]
        have e1 : fac (s.1.set k g) (s.2 ++ [pos1]) pos1 = 1 := by simp [fac]
        have e2 : fac (s.1.set k g) (s.2 ++ [pos1]) k = g.op := by
          simp [fac, hmem, hk', show k ≠ pos1 by omega]
        rw [e1, e2, hok.1]
        simp only [mul_one, ← mul_assoc]
        congr 1
        simp only [mul_assoc, hcomm.eq]

theorem outer_inv {P : Gate → Prop} (hP : GoodP P) {n : ℕ} {W : Op} :
    ∀ (l : List ℕ) (s s' : Circuit × List ℕ), SInv P n W s → (∀ i ∈ l, i < n) →
    simpOuter n l s = .ok s' → SInv P n W s' := by
  intro l
  induction l with
  | nil => intro s s' hs _ h; simp only [simpOuter] at h; cases h; exact hs
  | cons pos1 rest ih =>
    intro s s' hs hl h
    unfold simpOuter at h
    by_cases hmem : pos1 ∈ s.2
    · rw [if_pos hmem] at h
      exact ih s s' hs (fun i hi => hl i (by simp [hi])) h
    rw [if_neg hmem] at h
    rcases hg1 : s.1[pos1]? with _ | g1
    · rw [hg1] at h; cases h
    rw [hg1] at h
    simp only at h
    rcases hin : simpInner g1 pos1 (List.range' (pos1 + 1) (n - (pos1 + 1))) s with e | s1
    · rw [hin] at h; cases h
    rw [hin, except_ok_bind] at h
    have hp := hl pos1 (by simp)
    refine ih s1 s' ?_ (fun i hi => hl i (by simp [hi])) h
    refine inner_inv hP _ (pos1 + 1) s s1 (by omega) (by omega) hs hmem hg1 ?_ hin
    simp [prodOn]

theorem simplify_inv {P : Gate → Prop} (hP : GoodP P) {c c' : Circuit} (hc : ∀ g ∈ c, P g)
    (h : Circuit.simplify c = .ok c') : Circuit.op c' = Circuit.op c ∧ c'.length ≤ c.length ∧ ∀ g ∈ c', P g := by
  unfold Circuit.simplify at h
  rcases ho : simpOuter c.length (List.range c.length) (c, []) with e | s
  · rw [ho] at h; cases h
  rw [ho, except_ok_bind] at h
  cases h
  have hs := outer_inv hP (W := Circuit.op c) (n := c.length) _ (c, []) s ⟨rfl, List.nodup_nil, fun r hr => absurd hr List.not_mem_nil, hc, (op_eq_prodOn c).symm⟩
    (fun i hi => List.mem_range.1 hi) ho
  have hsort : (s.2.insertionSort (· ≤ ·)).reverse.Pairwise (· > ·) := by
    rw [List.pairwise_reverse]
    have h1 := List.pairwise_insertionSort (· ≤ ·) s.2
    have h2 : (s.2.insertionSort (· ≤ ·)).Nodup := (List.perm_insertionSort (· ≤ ·) s.2).nodup_iff.2 hs.nodup
    exact (h1.and h2).imp fun {a b} h => lt_of_le_of_ne h.1 h.2
  have hmem : ∀ p, p ∈ (s.2.insertionSort (· ≤ ·)).reverse ↔ p ∈ s.2 := by
    intro p; rw [List.mem_reverse, (List.perm_insertionSort (· ≤ ·) s.2).mem_iff]
  refine ⟨?_, ?_, ?_⟩
  · rw [erase_op _ _ hsort (fun p hp => by rw [hs.len]; exact hs.lt p ((hmem p).1 hp)), hs.len, ← hs.prod]
    apply prodOn_congr
    intro i _
    simp only [fac, hmem]
  · have : ∀ (l : List ℕ) (gs : Circuit), (l.foldl (fun gs p => gs.eraseIdx p) gs).length ≤ gs.length := by
      intro l
      induction l with
      | nil => intro gs; exact le_rfl
      | cons p l ih =>
        intro gs; rw [List.foldl_cons]
        exact (ih _).trans (List.length_eraseIdx_le _ _)
    exact (this _ _).trans_eq hs.len
  · have : ∀ (l : List ℕ) (gs : Circuit), (∀ g ∈ gs, P g) → ∀ g ∈ l.foldl (fun gs p => gs.eraseIdx p) gs, P g := by
      intro l
      induction l with
      | nil => intro gs h; exact h
      | cons p l ih =>
        intro gs h; rw [List.foldl_cons]
        exact ih _ fun g hg => h g (List.mem_of_mem_eraseIdx hg)
    exact this _ _ hs.gates

end QF
