import Verif.Model.Measure
import Verif.Lemmas.ApplyErr
import Verif.Lemmas.PauliGates

namespace QF

/-- invariants of monadic folds -/
theorem foldlM_inv {α β : Type} (P : β → Prop) (f : β → α → Except Exc β) (hf : ∀ b a b', P b → f b a = .ok b' → P b') :
    ∀ (l : List α) (b b' : β), P b → l.foldlM f b = .ok b' → P b' := by
  intro l
  induction l with
  | nil => intro b b' h e; cases e; exact h
  | cons a l ih =>
    intro b b' h e
    rw [List.foldlM_cons] at e
    rcases hq : f b a with x | b1
    · rw [hq] at e; cases e
    · rw [hq] at e; exact ih b1 b' (hf b a b1 h hq) e

theorem foldlM_ok_sum {α : Type} {M : Type} [AddCommMonoid M] (f : α → Except Exc M) (v : α → M) : ∀ (l : List α) (acc : M), (∀ a ∈ l, f a = .ok (v a)) →
    l.foldlM (fun acc a => (do let x ← f a; pure (acc + x) : Except Exc M)) acc = .ok (acc + (l.map v).sum) := by
  intro l
  induction l with
  | nil => intro acc _; simp; rfl
  | cons a l ih =>
    intro acc h
    rw [List.foldlM_cons, h a (by simp)]
    simp only [except_ok_bind, pure, Except.pure] at ih ⊢
    rw [ih (acc + v a) (fun x hx => h x (by simp [hx])), List.map_cons, List.sum_cons, add_assoc]

theorem foldl_add_eq_sum {M : Type} [AddCommMonoid M] : ∀ (l : List M) (a : M), l.foldl (· + ·) a = a + l.sum := by
  intro l
  induction l with
  | nil => intro a; simp
  | cons x l ih => intro a; rw [List.foldl_cons, ih, List.sum_cons, add_assoc]

theorem mapM_ok {α β : Type} (f : α → Except Exc β) (v : α → β) : ∀ (l : List α), (∀ a ∈ l, f a = .ok (v a)) → l.mapM f = .ok (l.map v) := by
  intro l h
  induction l with
  | nil => rfl
  | cons a l ih =>
    rw [List.mapM_cons, h a (by simp), ih (fun I hI => h I (by simp [hI]))]; rfl

/-! ### bit flips and blocks -/

theorem testBit_foldl_flip : ∀ (l : List ℕ) (I j : ℕ), l.Nodup → (l.foldl flipBit I).testBit j = (I.testBit j ^^ decide (j ∈ l)) := by
  intro l
  induction l with
  | nil => intro I j _; simp
  | cons t l ih =>
    intro I j h
    have hn := List.nodup_cons.1 h
    rw [List.foldl_cons, ih _ _ hn.2, testBit_flipBit]
    by_cases hj : j = t
    · subst hj; simp [hn.1]
    · simp [hj]

theorem testBit_block {m a k t : ℕ} (hk : k < 2 ^ m) (ht : m ≤ t) : (2 ^ m * a + k).testBit t = (2 ^ m * a).testBit t := by
  rw [Nat.testBit_two_pow_mul_add _ hk, if_neg (by omega), Nat.testBit_two_pow_mul]
  simp [ht]

theorem flipBit_block {m a k t : ℕ} (hk : k < 2 ^ m) (ht : m ≤ t) : flipBit (2 ^ m * a + k) t = 2 ^ m * flipBit a (t - m) + k := by
  apply eq_of_bits
  intro j
  rw [testBit_flipBit, Nat.testBit_two_pow_mul_add a hk, Nat.testBit_two_pow_mul_add a hk,
    Nat.testBit_two_pow_mul_add (flipBit a (t - m)) hk, testBit_flipBit]
  by_cases hj : j < m
  · rw [if_pos hj, if_pos hj, if_neg (by omega)]
  · rw [if_neg hj, if_neg hj, if_neg (show ¬ t < m by omega)]
    by_cases e : j = t
    · subst e; simp
    · rw [if_neg e, if_neg (by omega)]

theorem foldl_flip_block {m k : ℕ} (hk : k < 2 ^ m) : ∀ (l : List ℕ) (a : ℕ), (∀ t ∈ l, m ≤ t) →
    ∃ a', l.foldl flipBit (2 ^ m * a) = 2 ^ m * a' ∧ l.foldl flipBit (2 ^ m * a + k) = 2 ^ m * a' + k := by
  intro l
  induction l with
  | nil => intro a _; exact ⟨a, rfl, rfl⟩
  | cons t l ih =>
    intro a h
    have ht := h t (by simp)
    obtain ⟨a', e1, e2⟩ := ih (flipBit a (t - m)) (fun x hx => h x (by simp [hx]))
    refine ⟨a', ?_, ?_⟩
    · rw [List.foldl_cons]
      have := flipBit_block (m := m) (a := a) (k := 0) (by positivity) ht
      rw [add_zero, add_zero] at this
      rw [this, e1]
    · rw [List.foldl_cons, flipBit_block hk ht, e2]

/-! ### permuted index -/

/-- sign of a bit -/
noncomputable def sgn (I t : ℕ) : ℂ := 1 - 2 * (if I.testBit t then 1 else 0)

theorem ys_fold : ∀ (ys : List ℕ) (b : ℕ) (v : ℂ), ys.Nodup →
    ys.foldl (fun (p : ℕ × ℂ) yi => (flipBit p.1 yi, p.2 * (Complex.I * (1 - 2 * (if p.1.testBit yi then 1 else 0))))) (b, v) =
      (ys.foldl flipBit b, v * (ys.map fun y => Complex.I * sgn b y).prod) := by
  intro ys
  induction ys with
  | nil => intro b v _; simp
  | cons y ys ih =>
    intro b v h
    have hn := List.nodup_cons.1 h
    rw [List.foldl_cons, ih _ _ hn.2]
    simp only [List.foldl_cons, List.map_cons, List.prod_cons]
    congr 1
    have : ys.map (fun y' => Complex.I * sgn (flipBit b y) y') = ys.map (fun y' => Complex.I * sgn b y') := by
      apply List.map_congr_left
      intro y' hy'
      have : y' ≠ y := by rintro rfl; exact hn.1 hy'
      unfold sgn; rw [testBit_flipBit, if_neg this]
    rw [this]; unfold sgn; ring

theorem zs_fold (b : ℕ) : ∀ (zs : List ℕ) (v : ℂ), zs.foldl (fun v zi => v * (1 - 2 * (if b.testBit zi then 1 else 0))) v = v * (zs.map fun z => sgn b z).prod := by
  intro zs
  induction zs with
  | nil => intro v; simp
  | cons z zs ih => intro v; rw [List.foldl_cons, ih, List.map_cons, List.prod_cons]; unfold sgn; ring

theorem sgn_congr {I J t : ℕ} (h : I.testBit t = J.testBit t) : sgn I t = sgn J t := by unfold sgn; rw [h]

/-- what `get_pauli_permuted_idx` returns for distinct qubits -/
theorem permuted_eq (I : ℕ) (xs ys zs : List ℕ) (h : (xs ++ ys ++ zs).Nodup) :
    pauliPermutedIdx I xs ys zs = ((xs ++ ys).foldl flipBit I, (ys.map fun y => Complex.I * sgn I y).prod * (zs.map fun z => sgn I z).prod) := by
  have hxy := (List.nodup_append.1 h)
  have hx := List.nodup_append.1 hxy.1
  unfold pauliPermutedIdx
  simp only [ys_fold ys _ _ hx.2.1, zs_fold]
  rw [show xs.foldl (fun b xi => flipBit b xi) I = xs.foldl flipBit I from rfl, ← List.foldl_append, one_mul]
  congr 1
  have e1 : ys.map (fun y => Complex.I * sgn (xs.foldl flipBit I) y) = ys.map (fun y => Complex.I * sgn I y) := by
    apply List.map_congr_left
    intro y hy
    have : y ∉ xs := fun hy' => hx.2.2 y hy' y hy rfl
    rw [sgn_congr (J := I)]
    rw [testBit_foldl_flip _ _ _ hx.1]; simp [this]
  have e2 : zs.map (fun z => sgn ((xs ++ ys).foldl flipBit I) z) = zs.map (fun z => sgn I z) := by
    apply List.map_congr_left
    intro z hz
    have : z ∉ xs ++ ys := fun hz' => hxy.2.2 z hz' z hz rfl
    rw [sgn_congr (J := I)]
    rw [testBit_foldl_flip _ _ _ hxy.1]; simp [this]
  rw [e1, e2]

/-! ### the index lists -/

def tgts (s : String) (c : Circuit) : List ℕ := (c.filter fun g => g.label = s).map Gate.target

theorem pauliIdxs_ok (c : Circuit) : ∀ (m : ℕ) (xs ys zs : List ℕ), (∀ g ∈ c, IsXYZ g.label) →
    ∃ m', c.foldlM (fun (s : ℕ × List ℕ × List ℕ × List ℕ) g =>
      let m := if g.target < s.1 then g.target else s.1
      if g.label = "Z" then (.ok (m, s.2.1, s.2.2.1, s.2.2.2 ++ [g.target]) : Except Exc _)
      else if g.label = "X" then .ok (m, s.2.1 ++ [g.target], s.2.2.1, s.2.2.2)
      else if g.label = "Y" then .ok (m, s.2.1, s.2.2.1 ++ [g.target], s.2.2.2)
      else .error .runtimeError) (m, xs, ys, zs) = .ok (m', xs ++ tgts "X" c, ys ++ tgts "Y" c, zs ++ tgts "Z" c) ∧
      m' ≤ m ∧ ∀ g ∈ c, m' ≤ g.target := by
  induction c with
  | nil => intro m xs ys zs _; exact ⟨m, by simp [tgts]; rfl, le_refl _, by simp⟩
  | cons g c ih =>
    intro m xs ys zs h
    have hc := fun x hx => h x (List.mem_cons_of_mem g hx)
    obtain ⟨m1, hm1⟩ : ∃ m1, m1 = if g.target < m then g.target else m := ⟨_, rfl⟩
    have b1 : m1 ≤ m ∧ m1 ≤ g.target := by rw [hm1]; split_ifs <;> constructor <;> omega
    rcases h g (by simp) with e | e | e
    · obtain ⟨m', e1, e2, e3⟩ := ih m1 (xs ++ [g.target]) ys zs hc
      refine ⟨m', ?_, le_trans e2 b1.1, ?_⟩
      · rw [List.foldlM_cons]
        simp only [e, show ("X" : String) ≠ "Z" by decide, if_false, if_true, except_ok_bind, ← hm1]
        rw [e1]; simp [tgts, e]
      · intro x hx
        rcases List.mem_cons.1 hx with rfl | hx
        · exact le_trans e2 b1.2
        · exact e3 x hx
    · obtain ⟨m', e1, e2, e3⟩ := ih m1 xs (ys ++ [g.target]) zs hc
      refine ⟨m', ?_, le_trans e2 b1.1, ?_⟩
      · rw [List.foldlM_cons]
        simp only [e, show ("Y" : String) ≠ "Z" by decide, show ("Y" : String) ≠ "X" by decide, if_false, if_true, except_ok_bind, ← hm1]
        rw [e1]; simp [tgts, e]
      · intro x hx
        rcases List.mem_cons.1 hx with rfl | hx
        · exact le_trans e2 b1.2
        · exact e3 x hx
    · obtain ⟨m', e1, e2, e3⟩ := ih m1 xs ys (zs ++ [g.target]) hc
      refine ⟨m', ?_, le_trans e2 b1.1, ?_⟩
      · rw [List.foldlM_cons]
        simp only [e, if_true, except_ok_bind, ← hm1]
        rw [e1]; simp [tgts, e]
      · intro x hx
        rcases List.mem_cons.1 hx with rfl | hx
        · exact le_trans e2 b1.2
        · exact e3 x hx

/-- a string of distinct qubits gives disjoint index lists -/
theorem tgts_perm {c : Circuit} (h : ∀ g ∈ c, IsXYZ g.label) : (tgts "X" c ++ tgts "Y" c ++ tgts "Z" c).Perm (c.map Gate.target) := by
  induction c with
  | nil => simp [tgts]
  | cons g c ih =>
    have i := ih (fun x hx => h x (by simp [hx]))
    rcases h g (by simp) with e | e | e
    · simp only [tgts, List.filter_cons, e, decide_true, if_true, List.map_cons, List.cons_append] at i ⊢
      simpa using i
    · have : (tgts "X" (g :: c) ++ tgts "Y" (g :: c) ++ tgts "Z" (g :: c)) = tgts "X" c ++ g.target :: (tgts "Y" c ++ tgts "Z" c) := by
        simp [tgts, e]
      rw [this, List.map_cons]
      refine List.perm_middle.trans (List.Perm.cons _ ?_)
      rwa [List.append_assoc] at i
    · have : (tgts "X" (g :: c) ++ tgts "Y" (g :: c) ++ tgts "Z" (g :: c)) = (tgts "X" c ++ tgts "Y" c) ++ g.target :: (tgts "Z" c) := by
        simp [tgts, e]
      rw [this, List.map_cons]
      exact List.perm_middle.trans (List.Perm.cons _ i)

/-! ### action of a Pauli string on amplitudes -/

/-- factor of the amplitude picked up by a Pauli string -/
noncomputable def strFactor (c : Circuit) (I : ℕ) : ℂ := ((tgts "Y" c).map fun y => -(Complex.I * sgn I y)).prod * ((tgts "Z" c).map fun z => sgn I z).prod

theorem foldl_flip_comm (l : List ℕ) : ∀ (I t : ℕ), l.foldl flipBit (flipBit I t) = flipBit (l.foldl flipBit I) t := by
  induction l with
  | nil => intro I t; rfl
  | cons a l ih =>
    intro I t
    rw [List.foldl_cons, List.foldl_cons, ← ih]
    congr 1
    by_cases h : a = t
    · subst h; rfl
    · have h' : ¬ t = a := fun e => h e.symm
      apply eq_of_bits; intro j
      simp only [testBit_flipBit, if_neg h, if_neg h']
      by_cases j1 : j = a
      · subst j1; rw [if_pos rfl, if_neg h, if_pos rfl]
      · rw [if_neg j1, if_neg j1]

theorem foldl_flip_perm {l l' : List ℕ} (h : l.Perm l') (hn : l.Nodup) (I : ℕ) : l.foldl flipBit I = l'.foldl flipBit I := by
  apply eq_of_bits; intro j
  rw [testBit_foldl_flip _ _ _ hn, testBit_foldl_flip _ _ _ (h.nodup_iff.1 hn)]
  congr 2
  exact propext h.mem_iff

theorem pauli_action (c : Circuit) (hp : ∀ g ∈ c, PauliGate g) (hn : (c.map Gate.target).Nodup) (ψ : St) (I : ℕ) :
    c.op ψ I = strFactor c I * ψ ((tgts "X" c ++ tgts "Y" c).foldl flipBit I) := by
  induction c generalizing ψ I with
  | nil => simp [strFactor, tgts]
  | cons g c ih =>
    rw [List.map_cons, List.nodup_cons] at hn
    have hpc : ∀ x ∈ c, PauliGate x := fun x hx => hp x (by simp [hx])
    have hl : ∀ x ∈ c, IsXYZ x.label := fun x hx => (hpc x hx).letter
    have hperm := tgts_perm hl
    have hnd : (tgts "X" c ++ tgts "Y" c ++ tgts "Z" c).Nodup := hperm.nodup_iff.2 hn.2
    have hnot : g.target ∉ tgts "X" c ++ tgts "Y" c := by
      intro h
      exact hn.1 (hperm.mem_iff.1 (List.mem_append_left _ h))
    have hbit : ((tgts "X" c ++ tgts "Y" c).foldl flipBit I).testBit g.target = I.testBit g.target := by
      rw [testBit_foldl_flip _ _ _ (List.nodup_append.1 hnd).1]
      simp only [hnot, decide_false, Bool.xor_false]
    rw [Circuit.op_cons, Module.End.mul_apply, ih hpc hn.2]
    rcases (hp g (by simp)).cases with e | e | e
    · rw [e]
      have hl : (gX g.target).label = "X" := rfl
      have h1 : tgts "X" (gX g.target :: c) = g.target :: tgts "X" c := by simp [tgts, gX]
      have h2 : tgts "Y" (gX g.target :: c) = tgts "Y" c := by simp [tgts, gX]
      have h3 : tgts "Z" (gX g.target :: c) = tgts "Z" c := by simp [tgts, gX]
      rw [op_gX, opX_apply]
      unfold strFactor
      rw [h1, h2, h3, List.cons_append, List.foldl_cons, foldl_flip_comm]
    · rw [e]
      have h1 : tgts "X" (gY g.target :: c) = tgts "X" c := by simp [tgts, gY]
      have h2 : tgts "Y" (gY g.target :: c) = g.target :: tgts "Y" c := by simp [tgts, gY]
      have h3 : tgts "Z" (gY g.target :: c) = tgts "Z" c := by simp [tgts, gY]
      rw [op_gY, opY_apply, hbit]
      unfold strFactor
      rw [h1, h2, h3, List.map_cons, List.prod_cons]
      have : (tgts "X" c ++ g.target :: tgts "Y" c).foldl flipBit I = flipBit ((tgts "X" c ++ tgts "Y" c).foldl flipBit I) g.target := by
        rw [List.foldl_append, List.foldl_cons, foldl_flip_comm, List.foldl_append]
      rw [this]
      unfold sgn
      rcases I.testBit g.target <;> simp <;> ring
    · rw [e]
      have h1 : tgts "X" (gZ g.target :: c) = tgts "X" c := by simp [tgts, gZ]
      have h2 : tgts "Y" (gZ g.target :: c) = tgts "Y" c := by simp [tgts, gZ]
      have h3 : tgts "Z" (gZ g.target :: c) = g.target :: tgts "Z" c := by simp [tgts, gZ]
      rw [op_gZ, opZ_apply, hbit]
      unfold strFactor
      rw [h1, h2, h3, List.map_cons, List.prod_cons]
      unfold sgn
      rcases I.testBit g.target <;> simp <;> ring

/-! ### the blocked sum -/

theorem windowProd_ok {l : List ℂ} {a b len : ℕ} (ha : a + len ≤ l.length) (hb : b + len ≤ l.length) :
    windowProd l a b len = .ok (∑ k ∈ Finset.range len, (starRingEnd ℂ) (vec l (a + k)) * vec l (b + k)) := by
  have key : ∀ k ∈ List.range len, (do
      let x ← rd l (a + k)
      let y ← rd l (b + k)
      pure ((starRingEnd ℂ) x * y) : Except Exc ℂ) = .ok ((starRingEnd ℂ) (vec l (a + k)) * vec l (b + k)) := by
    intro k hk
    have := List.mem_range.1 hk
    rw [rd_ok (by omega), rd_ok (by omega)]; rfl
  have := foldlM_ok_sum _ _ (List.range len) 0 key
  rw [zero_add] at this
  unfold windowProd
  simp only [bind_assoc, pure_bind] at this
  rw [this]
  congr 1

theorem foldl_flip_lt {n : ℕ} : ∀ (l : List ℕ) (I : ℕ), (∀ t ∈ l, t < n) → I < 2 ^ n → l.foldl flipBit I < 2 ^ n := by
  intro l
  induction l with
  | nil => intro I _ h; exact h
  | cons t l ih =>
    intro I h hI
    rw [List.foldl_cons]
    exact ih _ (fun x hx => h x (by simp [hx])) ((flipBit_lt (h t (by simp))).2 hI)

theorem prod_neg_map (l : List ℕ) (f : ℕ → ℂ) : (l.map fun y => -(f y)).prod = (-1) ^ l.length * (l.map f).prod := by
  induction l with
  | nil => simp
  | cons a l ih => rw [List.map_cons, List.prod_cons, ih, List.map_cons, List.prod_cons, List.length_cons, pow_succ]; ring

theorem sum_blocks (f : ℕ → ℂ) (N bs : ℕ) : ∑ I ∈ Finset.range (N * bs), f I = ((List.range N).map fun n => ∑ k ∈ Finset.range bs, f (n * bs + k)).sum := by
  induction N with
  | zero => simp
  | succ N ih =>
    rw [Nat.succ_mul, Finset.sum_range_add, ih, List.range_succ, List.map_append, List.sum_append]
    simp

theorem directPauli_ok {q : Computer} (hq : q.WF) (h0 : 1 ≤ q.nqubit) (sch : Schedule) (c : Circuit) (hp : ∀ g ∈ c, PauliGate g) (hf : c.Fits q.nqubit)
    (hn : (c.map Gate.target).Nodup) :
    q.directPauliCircExpVal sch c = .ok ((-1) ^ (tgts "Y" c).length * inner q.nqubit q.psi (c.op q.psi)) := by
  have hl : ∀ g ∈ c, IsXYZ g.label := fun g hg => (hp g hg).letter
  obtain ⟨m, e1, e2, e3⟩ := pauliIdxs_ok c (q.nqubit - 1) [] [] [] hl
  rw [List.nil_append, List.nil_append, List.nil_append] at e1
  obtain ⟨xs, hxs⟩ : ∃ xs, xs = tgts "X" c := ⟨_, rfl⟩
  obtain ⟨ys, hys⟩ : ∃ ys, ys = tgts "Y" c := ⟨_, rfl⟩
  obtain ⟨zs, hzs⟩ : ∃ zs, zs = tgts "Z" c := ⟨_, rfl⟩
  have hperm := tgts_perm hl
  have hnd : (xs ++ ys ++ zs).Nodup := by rw [hxs, hys, hzs]; exact hperm.nodup_iff.2 hn
  have hmem : ∀ t ∈ xs ++ ys ++ zs, m ≤ t ∧ t < q.nqubit := by
    intro t ht
    rw [hxs, hys, hzs] at ht
    obtain ⟨g, hg, rfl⟩ := List.mem_map.1 (hperm.mem_iff.1 ht)
    exact ⟨e3 g hg, (hf g hg).1⟩
  rw [← hxs, ← hys, ← hzs] at e1
  have hmn : m ≤ q.nqubit := by omega
  obtain ⟨d, hd⟩ : ∃ d, q.nqubit = m + d := ⟨q.nqubit - m, by omega⟩
  have hN : q.nbasis / 2 ^ m = 2 ^ d := by rw [hq.nbasis, hd, pow_add, Nat.mul_div_cancel_left _ (by positivity)]
  -- the summand
  let F : ℕ → ℂ := fun I => (ys.map fun y => Complex.I * sgn I y).prod * (zs.map fun z => sgn I z).prod *
    ((starRingEnd ℂ) (q.psi I) * q.psi ((xs ++ ys).foldl flipBit I))
  have hblock : ∀ b < 2 ^ d, q.pauliBlock (2 ^ m) xs ys zs b = .ok (∑ k ∈ Finset.range (2 ^ m), F (b * 2 ^ m + k)) := by
    intro b hb
    have hlt : b * 2 ^ m + 2 ^ m ≤ 2 ^ q.nqubit := by
      rw [hd, pow_add]
      calc b * 2 ^ m + 2 ^ m = (b + 1) * 2 ^ m := by ring
        _ ≤ 2 ^ d * 2 ^ m := Nat.mul_le_mul_right _ hb
        _ = _ := by ring
    have hpos : 0 < 2 ^ m := by positivity
    have hxy : ∀ t ∈ xs ++ ys, m ≤ t := fun t ht => (hmem t (List.mem_append_left _ ht)).1
    obtain ⟨a', p1, _⟩ := foldl_flip_block (m := m) (k := 0) hpos (xs ++ ys) b hxy
    have hplt : (xs ++ ys).foldl flipBit (b * 2 ^ m) + 2 ^ m ≤ 2 ^ q.nqubit := by
      have := foldl_flip_lt (n := q.nqubit) (xs ++ ys) (b * 2 ^ m) (fun t ht => (hmem t (List.mem_append_left _ ht)).2) (by omega)
      rw [mul_comm b, p1] at this ⊢
      rw [hd, pow_add] at this ⊢
      have h1 : a' < 2 ^ d := Nat.lt_of_mul_lt_mul_left this
      calc 2 ^ m * a' + 2 ^ m = 2 ^ m * (a' + 1) := by ring
        _ ≤ 2 ^ m * 2 ^ d := Nat.mul_le_mul_left _ h1
    unfold Computer.pauliBlock
    simp only [permuted_eq _ xs ys zs hnd]
    rw [windowProd_ok (by rw [hq.len]; exact hlt) (by rw [hq.len]; exact hplt)]
    simp only [except_ok_bind, pure, Except.pure]
    congr 1
    rw [Finset.mul_sum]
    refine Finset.sum_congr rfl (fun k hk => ?_)
    have hk := Finset.mem_range.1 hk
    obtain ⟨a'', r1, r2⟩ := foldl_flip_block (m := m) (k := k) hk (xs ++ ys) b hxy
    have hs : ∀ t, m ≤ t → sgn (b * 2 ^ m + k) t = sgn (b * 2 ^ m) t := by
      intro t ht
      apply sgn_congr
      rw [mul_comm b]; exact testBit_block hk ht
    have s1 : ys.map (fun y => Complex.I * sgn (b * 2 ^ m + k) y) = ys.map (fun y => Complex.I * sgn (b * 2 ^ m) y) :=
      List.map_congr_left fun y hy => by rw [hs y (hmem y (by simp [hy])).1]
    have s2 : zs.map (fun y => sgn (b * 2 ^ m + k) y) = zs.map (fun y => sgn (b * 2 ^ m) y) :=
      List.map_congr_left fun y hy => hs y (hmem y (by simp [hy])).1
    have s3 : (xs ++ ys).foldl flipBit (b * 2 ^ m + k) = (xs ++ ys).foldl flipBit (b * 2 ^ m) + k := by
      rw [mul_comm b, r1, r2]
    simp only [F, s1, s2, s3]
    rfl
  have hth : ∀ th ∈ sch.threads (2 ^ d), th.foldlM (fun acc n => (do
      let v ← q.pauliBlock (2 ^ m) xs ys zs n
      pure (acc + v) : Except Exc ℂ)) (0 : ℂ) = .ok ((th.map fun n => ∑ k ∈ Finset.range (2 ^ m), F (n * 2 ^ m + k)).sum) := by
    intro th hth
    have := foldlM_ok_sum (fun n => q.pauliBlock (2 ^ m) xs ys zs n) (fun n => ∑ k ∈ Finset.range (2 ^ m), F (n * 2 ^ m + k)) th 0 (by
      intro n hn
      apply hblock
      have : n ∈ (sch.threads (2 ^ d)).flatten := List.mem_flatten.2 ⟨th, hth, hn⟩
      exact List.mem_range.1 ((sch.isPerm _).mem_iff.1 this))
    rw [zero_add] at this
    exact this
  unfold Computer.directPauliCircExpVal pauliIdxs
  rw [e1]
  simp only [except_ok_bind, hN]
  rw [if_neg (fun h => absurd h.1 (by omega))]
  simp only [pure, Except.pure, except_ok_bind]
  simp only [pure, Except.pure] at hth
  rw [mapM_ok _ _ _ hth]
  simp only [except_ok_bind, pure, Except.pure]
  congr 1
  rw [foldl_add_eq_sum, zero_add]
  have flat : ∀ (L : List (List ℕ)) (f : ℕ → ℂ), (L.map fun th => (th.map f).sum).sum = (L.flatten.map f).sum := by
    intro L f
    induction L with
    | nil => simp
    | cons a L ih => rw [List.map_cons, List.sum_cons, ih, List.flatten_cons, List.map_append, List.sum_append]
  rw [flat, ((sch.isPerm (2 ^ d)).map _).sum_eq, ← sum_blocks]
  unfold inner
  rw [show 2 ^ d * 2 ^ m = 2 ^ q.nqubit by rw [hd, pow_add]; ring, Finset.mul_sum]
  refine Finset.sum_congr rfl (fun I _ => ?_)
  rw [pauli_action c hp hn]
  simp only [F, strFactor]
  rw [← hxs, ← hys, ← hzs, prod_neg_map ys (fun y => Complex.I * sgn I y)]
  have h1 : ((-1 : ℂ) ^ ys.length) * (-1) ^ ys.length = 1 := by rw [← mul_pow]; norm_num
  generalize (ys.map fun y => Complex.I * sgn I y).prod = A
  generalize (zs.map fun z => sgn I z).prod = B
  calc A * B * ((starRingEnd ℂ) (q.psi I) * q.psi ((xs ++ ys).foldl flipBit I))
      = ((-1) ^ ys.length * (-1) ^ ys.length) * (A * B * ((starRingEnd ℂ) (q.psi I) * q.psi ((xs ++ ys).foldl flipBit I))) := by rw [h1, one_mul]
    _ = _ := by ring

end QF
