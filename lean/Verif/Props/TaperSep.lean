import Verif.Props.TaperOp

/-! C67: the strings of the tapering unitary are told apart by the generators they commute with. -/
namespace QF
namespace Taper

theorem anti_not_comm {A B : Op} (hA : A * A = 1) (hB : B * B = 1) (h : AntiCommute A B) : ¬ Commute A B := by
  intro hc
  unfold AntiCommute at h
  rw [hc.eq] at h
  have h1 : (2 : ℂ) • (B * A) = 0 := by rw [two_smul]; nth_rewrite 2 [h]; exact add_neg_cancel _
  rcases smul_eq_zero.1 h1 with h2 | h2
  · norm_num at h2
  · have : B * (B * A) * A = 1 := by rw [← mul_assoc B B A, hB, one_mul, hA]
    rw [h2, mul_zero, zero_mul] at this
    exact op_one_ne_zero this.symm

theorem comm_iff_of_mul {a b c d : Op} {z : ℂ} (hz : z ≠ 0) (hb : b * b = 1) (h : a * b = z • c) (hbd : Commute b d) : Commute c d ↔ Commute a d := by
  have hc : c = z⁻¹ • (a * b) := by rw [h, smul_smul, inv_mul_cancel₀ hz, one_smul]
  have ha : a = z • (c * b) := by rw [← smul_mul_assoc, ← h, mul_assoc, hb, mul_one]
  constructor
  · intro hh; rw [ha]; exact Commute.smul_left (hh.mul_left hbd) _
  · intro hh; rw [hc]; exact Commute.smul_left (hh.mul_left hbd) _

structure Sep (W : QubitOperator) (used later : List Circuit) : Prop where
  comm : ∀ t ∈ W, ∀ g ∈ later, Commute t.2.opLR g.opLR
  sep : ∀ t ∈ W, ∀ u ∈ W, (∀ g ∈ used, (Commute t.2.opLR g.opLR ↔ Commute u.2.opLR g.opLR)) → t.2 = u.2

theorem sep_first {g : Circuit} {s : ℕ} {later : List Circuit} (ha : AntiPair (opPair (g, s)))
    (hc : ∀ x ∈ later, Commute g.opLR x.opLR ∧ Commute (opX s) x.opLR) : Sep (unitaryTerm (g, s)) [g] later := by
  have hn : ¬ Commute (opX s) g.opLR := fun h => anti_not_comm ha.sq1 ha.sq2 ha.anti h.symm
  refine ⟨?_, ?_⟩
  · intro t ht x hx
    simp only [unitaryTerm, List.mem_cons, List.not_mem_nil, or_false] at ht
    rcases ht with rfl | rfl
    · exact (hc x hx).1
    · simp only [gX_opLR]; exact (hc x hx).2
  · intro t ht u hu h
    have h := h g (by simp)
    simp only [unitaryTerm, List.mem_cons, List.not_mem_nil, or_false] at ht hu
    rcases ht with rfl | rfl <;> rcases hu with rfl | rfl
    · rfl
    · exfalso; apply hn; simp only [gX_opLR] at h; exact h.1 (Commute.refl _)
    · exfalso; apply hn; simp only [gX_opLR] at h; exact h.2 (Commute.refl _)
    · rfl

theorem sep_step {W W' : QubitOperator} {g : Circuit} {s : ℕ} {used later : List Circuit} (h : Sep W used (g :: later)) (hcan : ∀ t ∈ W', t.2.Canonical)
    (ha : AntiPair (opPair (g, s)))
    (hu : ∀ x ∈ used, Commute g.opLR x.opLR ∧ Commute (opX s) x.opLR) (hl : ∀ x ∈ later, Commute g.opLR x.opLR ∧ Commute (opX s) x.opLR)
    (hW : ∀ t ∈ W', ∃ u ∈ W, ∃ z : ℂ, z ≠ 0 ∧ (u.2.opLR * g.opLR = z • t.2.opLR ∨ u.2.opLR * opX s = z • t.2.opLR)) : Sep W' (used ++ [g]) later := by
  have hn : ¬ Commute (opX s) g.opLR := fun h => anti_not_comm ha.sq1 ha.sq2 ha.anti h.symm
  have gsq : g.opLR * g.opLR = 1 := ha.sq1
  have xsq : opX s * opX s = 1 := ha.sq2
  refine ⟨?_, ?_⟩
  · intro t ht x hx
    obtain ⟨u, hu', z, hz, e | e⟩ := hW t ht
    · exact (comm_iff_of_mul hz gsq e (hl x hx).1).2 (h.comm u hu' x (by simp [hx]))
    · exact (comm_iff_of_mul hz xsq e (hl x hx).2).2 (h.comm u hu' x (by simp [hx]))
  · intro t ht t' ht' hs
    -- a term with the generator commutes with it, a term with X does not
    have cg : ∀ t u : ℂ × Circuit, u ∈ W → ∀ z : ℂ, z ≠ 0 → u.2.opLR * g.opLR = z • t.2.opLR → Commute t.2.opLR g.opLR := by
      intro t u hu' z hz e
      exact (comm_iff_of_mul hz gsq e (Commute.refl _)).2 (h.comm u hu' g (by simp))
    have sq : ∀ t ∈ W', t.2.opLR * t.2.opLR = 1 := fun t ht => canon_sq (hcan t ht)
    have cx : ∀ t ∈ W', ∀ u ∈ W, ∀ z : ℂ, z ≠ 0 → u.2.opLR * opX s = z • t.2.opLR → ¬ Commute t.2.opLR g.opLR := by
      intro t ht u hu' z hz e hc
      apply hn
      -- g commutes with u and with u X, and u is invertible
      have ue : u.2.opLR = z • (t.2.opLR * opX s) := by rw [← smul_mul_assoc, ← e, mul_assoc, xsq, mul_one]
      have hcu := h.comm u hu' g (by simp)
      rw [ue] at hcu
      have h1 : Commute (t.2.opLR * opX s) g.opLR := by
        have := Commute.smul_left hcu z⁻¹
        rwa [smul_smul, inv_mul_cancel₀ hz, one_smul] at this
      have : opX s = t.2.opLR * (t.2.opLR * opX s) := by rw [← mul_assoc, sq t ht, one_mul]
      rw [this]
      exact hc.mul_left h1
    have hg := hs g (by simp)
    obtain ⟨u, hu1, z, hz, e⟩ := hW t ht
    obtain ⟨u', hu1', z', hz', e'⟩ := hW t' ht'
    have fin : ∀ b : Op, b * b = 1 → (∀ x ∈ used, Commute b x.opLR) → u.2.opLR * b = z • t.2.opLR → u'.2.opLR * b = z' • t'.2.opLR → t.2 = t'.2 := by
      intro b hb hbx e e'
      have huu : u.2 = u'.2 := h.sep u hu1 u' hu1' (fun x hx => by
        rw [← comm_iff_of_mul hz hb e (hbx x hx), ← comm_iff_of_mul hz' hb e' (hbx x hx)]
        exact hs x (by simp [hx]))
      rw [huu, e'] at e
      refine canon_inj (k := z'⁻¹ * z) (hcan t ht) (hcan t' ht') ?_
      rw [mul_smul, ← e, smul_smul, inv_mul_cancel₀ hz', one_smul]
    rcases e with e | e <;> rcases e' with e' | e'
    · exact fin _ gsq (fun x hx => (hu x hx).1) e e'
    · exact absurd (hg.1 (cg t u hu1 z hz e)) (cx t' ht' u' hu1' z' hz' e')
    · exact absurd (hg.2 (cg t' u' hu1' z' hz' e')) (cx t ht u hu1 z hz e)
    · exact fin _ xsq (fun x hx => (hu x hx).2) e e'

theorem sep_fold : ∀ (l : List (Circuit × ℕ)) (k : ℕ) (W : QubitOperator) (P : Op) (used : List Circuit), Chain k W P (l.map Prod.snd) → k + l.length ≤ 79 →
    Sep W used (l.map Prod.fst) → (∀ t ∈ l, t.1.Canonical ∧ AntiPair (opPair t)) → l.Pairwise (fun t u => CommPairs (opPair t) (opPair u)) →
    (∀ x ∈ used, ∀ t ∈ l, Commute t.1.opLR x.opLR ∧ Commute (opX t.2) x.opLR) → ∀ W',
    (l.map unitaryTerm).foldlM (fun U op => U.operatorProduct op true true) W = .ok W' → Sep W' (used ++ l.map Prod.fst) []
  | [], k, W, P, used, _, _, h, _, _, _, W', e => by
    rw [List.map_nil, List.foldlM_nil] at e
    cases e
    simpa using h
  | t :: l, k, W, P, used, hch, hk, h, ha, hp, hx, W', e => by
    rw [List.pairwise_cons] at hp
    rw [List.length_cons] at hk
    obtain ⟨W1, e1, c1, hW1⟩ := chain_step (g := t.1) (s := t.2) (later := l.map Prod.snd) hch (by omega) (ha t (by simp)).1 (ha t (by simp)).2.anti (by
      intro x hx
      obtain ⟨u, hu, rfl⟩ := List.mem_map.1 hx
      exact (hp.1 u hu).2.1)
    have s1 := sep_step (later := l.map Prod.fst) h c1.can (ha t (by simp)).2 (fun x hx' => hx x hx' t (by simp)) (by
      intro x hx'
      obtain ⟨u, hu, rfl⟩ := List.mem_map.1 hx'
      exact ⟨(hp.1 u hu).1, (hp.1 u hu).2.2.1⟩) hW1
    rw [List.map_cons, List.foldlM_cons] at e
    rw [show unitaryTerm t = unitaryTerm (t.1, t.2) from rfl, e1, except_ok_bind] at e
    have := sep_fold l (k + 1) W1 _ (used ++ [t.1]) c1 (by omega) s1 (fun u hu => ha u (by simp [hu])) hp.2 (by
      intro x hx' u hu
      rcases List.mem_append.1 hx' with hx' | hx'
      · exact hx x hx' u (by simp [hu])
      · rw [List.mem_singleton] at hx'; subst hx'
        exact ⟨(hp.1 u hu).1.symm, (hp.1 u hu).2.1.symm⟩) W' e
    simpa using this

theorem finish_sep {H : QubitOperator} {gens : List Circuit} {sig : List ℕ} (hs : SymmetryGenerators H gens) (hp : TaperPairs H.numQubits gens sig)
    (h79 : gens.length ≤ 79) {S : Symmetries} (hS : finish gens sig = .ok S) : Sep S.unitary gens [] := by
  obtain ⟨f1, f2⟩ := pairs_facts hs hp
  have hl := hp.length
  cases gens with
  | nil => cases hS
  | cons g gens =>
    cases sig with
    | nil => simp at hl
    | cons s sig =>
      rw [List.zip_cons_cons] at f1 f2
      rw [List.pairwise_cons] at f2
      have hg := f1 (g, s) (by simp)
      have c0 := chain_first (g := g) (s := s) (later := (gens.zip sig).map Prod.snd) hg.1 hg.2.1.anti (by
        intro x hx
        obtain ⟨u, hu, rfl⟩ := List.mem_map.1 hx
        exact (f2.1 u hu).2.1)
      have s0 := sep_first (g := g) (s := s) (later := (gens.zip sig).map Prod.fst) hg.2.1 (by
        intro x hx
        obtain ⟨u, hu, rfl⟩ := List.mem_map.1 hx
        exact ⟨(f2.1 u hu).1, (f2.1 u hu).2.2.1⟩)
      have hl' : gens.length = sig.length := by simpa using hl.symm
      have hzl : (gens.zip sig).length = gens.length := by rw [List.length_zip]; omega
      unfold finish at hS
      simp only [List.zip_cons_cons, List.map_cons] at hS
      rw [addOp_nil] at hS
      rcases e : ((gens.zip sig).map unitaryTerm).foldlM (fun (U : QubitOperator) op => U.operatorProduct op true true) (unitaryTerm (g, s)) with x | W
      · rw [e] at hS; cases hS
      · rw [e] at hS; cases hS
        have := sep_fold (gens.zip sig) 1 _ _ [g] c0 (by rw [hzl]; simp at h79; omega) s0 (fun t ht => ⟨(f1 t (by simp [ht])).1, (f1 t (by simp [ht])).2.1⟩)
          f2.2 (by
            intro x hx t ht
            rw [List.mem_singleton] at hx; subst hx
            exact ⟨(f2.1 t ht).1.symm, (f2.1 t ht).2.1.symm⟩) W e
        rw [List.map_fst_zip (by omega)] at this
        simpa using this

end Taper
end QF
