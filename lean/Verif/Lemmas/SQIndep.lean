import Verif.Lemmas.JW
import Verif.Lemmas.SQ
import Mathlib.Data.List.Sort

/-! Normal-ordered strings of ladder operators are linearly independent. -/
namespace QF

/-- determinant with the listed orbitals occupied -/
def det (l : List ℕ) : ℕ := l.foldr (fun p I => flipBit I p) 0

theorem det_bit (l : List ℕ) (hn : l.Nodup) (p : ℕ) : (det l).testBit p = decide (p ∈ l) := by
  unfold det
  induction l with
  | nil => simp
  | cons q l ih =>
    obtain ⟨hq, hn'⟩ := List.nodup_cons.1 hn
    rw [List.foldr_cons, testBit_flipBit]
    by_cases e : p = q
    · subst e; simp [ih hn', hq]
    · simp [e, ih hn']

theorem det_inj {l l' : List ℕ} (h : l.Pairwise fun p q => q < p) (h' : l'.Pairwise fun p q => q < p) (e : det l = det l') : l = l' := by
  have n1 : l.Nodup := h.imp (fun h => Nat.ne_of_gt h)
  have n2 : l'.Nodup := h'.imp (fun h => Nat.ne_of_gt h)
  have hp : l.Perm l' := by
    rw [List.perm_ext_iff_of_nodup n1 n2]
    intro p
    have := congrArg (fun I => Nat.testBit I p) e
    simp only [det_bit l n1, det_bit l' n2] at this
    simpa using this
  exact List.Perm.eq_of_pairwise (fun a b _ _ h1 h2 => by omega) h h' hp

theorem lad_blocked (qe b : Bool) (p I : ℕ) (h : I.testBit p = b) : lad qe b p (Pi.single I 1) = 0 := by
  funext J
  have hJ : J.testBit p = b → flipBit J p ≠ I := by
    intro e e'
    have := testBit_flipBit J p p
    rw [e', h, if_pos rfl, e] at this
    cases b <;> simp at this
  cases qe
  · show ladder b p _ J = 0
    rw [ladder_apply]
    split_ifs with e
    · rw [Pi.single_eq_of_ne (hJ e), mul_zero]
    · rfl
  · show qladder b p _ J = 0
    rw [qladder_apply]
    split_ifs with e
    · rw [Pi.single_eq_of_ne (hJ e)]
    · rfl

theorem lad_prod_blocked (qe b : Bool) : ∀ (ops : List ℕ) (I : ℕ), ops.Nodup → (∃ p ∈ ops, I.testBit p = b) →
    (ops.map (lad qe b)).prod (Pi.single I 1) = 0 := by
  intro ops
  induction ops with
  | nil => intro I _ h; simp at h
  | cons p ops ih =>
    intro I hn h
    obtain ⟨hp, hn'⟩ := List.nodup_cons.1 hn
    rw [List.map_cons, List.prod_cons, Module.End.mul_apply]
    by_cases h2 : ∃ p ∈ ops, I.testBit p = b
    · rw [ih I hn' h2, map_zero]
    · obtain ⟨s, _, e⟩ := lad_prod_single qe b ops I hn' (fun q hq e => h2 ⟨q, hq, e⟩)
      have hpb : I.testBit p = b := by
        obtain ⟨q, hq, hb⟩ := h
        rcases List.mem_cons.1 hq with rfl | hq
        · exact hb
        · exact absurd ⟨q, hq, hb⟩ h2
      have hbit : ∀ (ops : List ℕ), p ∉ ops → (ops.foldr (fun p I => flipBit I p) I).testBit p = I.testBit p := by
        intro ops
        induction ops with
        | nil => intro _; rfl
        | cons q ops ih =>
          intro h
          rw [List.foldr_cons, testBit_flipBit, if_neg (by intro e; exact h (by simp [e])), ih (fun e => h (by simp [e]))]
      rw [e, map_smul, lad_blocked qe b p _ (by rw [hbit ops hp, hpb]), smul_zero]

/-- the string of ladder operators of a term -/
noncomputable def ladString (qe : Bool) (k : SQOperator.Key) : Op := (k.1.map (lad qe true)).prod * (k.2.map (lad qe false)).prod

theorem ladString_false (k : SQOperator.Key) : ladString false k = fermiString k.1 k.2 := rfl
theorem ladString_true (k : SQOperator.Key) : ladString true k = qubitString k.1 k.2 := rfl

/-- strictly descending indices -/
def SDesc (k : SQOperator.Key) : Prop := (k.1.Pairwise fun p q => q < p) ∧ k.2.Pairwise fun p q => q < p

theorem sdesc_nodup {l : List ℕ} (h : l.Pairwise fun p q => q < p) : l.Nodup := h.imp (fun h => Nat.ne_of_gt h)

theorem sq_independent (qe : Bool) (F : SQOperator) (hd : ∀ t ∈ F, SDesc t.2) (hn : (F.map Prod.snd).Nodup)
    (h : (F.map fun t => t.1 • ladString qe t.2).sum = 0) : ∀ t ∈ F, t.1 = 0 := by
  by_contra hcon
  push Not at hcon
  have hex : ∃ m, ∃ t ∈ F, t.1 ≠ 0 ∧ t.2.2.length = m := by
    obtain ⟨t, ht, h0⟩ := hcon; exact ⟨_, t, ht, h0, rfl⟩
  classical
  obtain ⟨t0, ht0, hz0, hl0⟩ := Nat.find_spec hex
  have hmin : ∀ t ∈ F, t.1 ≠ 0 → t0.2.2.length ≤ t.2.2.length := by
    intro t ht hz
    rw [hl0]; exact Nat.find_min' hex ⟨t, ht, hz, rfl⟩
  have n1 := sdesc_nodup (hd t0 ht0).1
  have n2 := sdesc_nodup (hd t0 ht0).2
  -- amplitude of a string on the chosen determinants
  have hamp : ∀ t ∈ F, t ≠ t0 → (t.1 • ladString qe t.2) (Pi.single (det t0.2.2) 1) (det t0.2.1) = 0 := by
    intro t ht hne
    by_cases hz : t.1 = 0
    · rw [hz, zero_smul]; rfl
    rw [LinearMap.smul_apply, Pi.smul_apply]
    unfold ladString
    rw [Module.End.mul_apply]
    have m1 := sdesc_nodup (hd t ht).1
    have m2 := sdesc_nodup (hd t ht).2
    by_cases hsub : ∃ p ∈ t.2.2, (det t0.2.2).testBit p = false
    · rw [lad_prod_blocked qe false _ _ m2 hsub, map_zero]; simp
    · have hsub' : t.2.2 ⊆ t0.2.2 := by
        intro p hp
        by_contra hpn
        exact hsub ⟨p, hp, by rw [det_bit _ n2]; simpa using hpn⟩
      have hperm : t.2.2.Perm t0.2.2 := by
        have := List.subperm_of_subset m2 hsub'
        exact this.perm_of_length_le (hmin t ht hz)
      have e2 : t.2.2 = t0.2.2 := List.Perm.eq_of_pairwise (fun a b _ _ h1 h2 => by omega) (hd t ht).2 (hd t0 ht0).2 hperm
      rw [e2]
      obtain ⟨s, hs, e⟩ := lad_prod_single qe false t0.2.2 (det t0.2.2) n2 (by
        intro p hp; rw [det_bit _ n2]; simpa using hp)
      unfold det at e
      rw [foldr_flip_self] at e
      obtain ⟨s', hs', e'⟩ := lad_prod_single qe true t.2.1 0 m1 (by intro p _; simp)
      unfold det
      rw [e, map_smul, e']
      have hne1 : det t0.2.1 ≠ det t.2.1 := by
        intro h1
        have := det_inj (hd t0 ht0).1 (hd t ht).1 h1
        apply hne
        have hk : t.2 = t0.2 := Prod.ext this.symm e2
        exact List.inj_on_of_nodup_map hn ht ht0 hk
      simp only [Pi.smul_apply]
      rw [show (Pi.single (List.foldr (fun p I => flipBit I p) 0 t.2.1) (1 : ℂ) : St) (List.foldr (fun p I => flipBit I p) 0 t0.2.1) = 0 from
        Pi.single_eq_of_ne hne1 _]
      simp
  have h0 : (t0.1 • ladString qe t0.2) (Pi.single (det t0.2.2) 1) (det t0.2.1) ≠ 0 := by
    rw [LinearMap.smul_apply, Pi.smul_apply]
    unfold ladString
    rw [Module.End.mul_apply]
    obtain ⟨s, hs, e⟩ := lad_prod_single qe false t0.2.2 (det t0.2.2) n2 (by
      intro p hp; rw [det_bit _ n2]; simpa using hp)
    unfold det at e
    rw [foldr_flip_self] at e
    obtain ⟨s', hs', e'⟩ := lad_prod_single qe true t0.2.1 0 n1 (by intro p _; simp)
    unfold det
    rw [e, map_smul, e']
    simp [hs, hs', hz0]
  have hsum : ((F.map fun t => t.1 • ladString qe t.2).sum) (Pi.single (det t0.2.2) 1) (det t0.2.1) =
      (F.map fun t => (t.1 • ladString qe t.2) (Pi.single (det t0.2.2) 1) (det t0.2.1)).sum := by
    generalize (Pi.single (det t0.2.2) 1 : St) = ψ
    generalize det t0.2.1 = J
    have : ∀ F : SQOperator, ((F.map fun t => t.1 • ladString qe t.2).sum) ψ J = (F.map fun t => (t.1 • ladString qe t.2) ψ J).sum := by
      intro F
      induction F with
      | nil => simp
      | cons t F ih => simp only [List.map_cons, List.sum_cons, LinearMap.add_apply, Pi.add_apply, ih]
    exact this F
  rw [h] at hsum
  have hcons : ∀ F : SQOperator, F.Nodup → t0 ∈ F → (∀ t ∈ F, t ≠ t0 → (t.1 • ladString qe t.2) (Pi.single (det t0.2.2) 1) (det t0.2.1) = 0) →
      (F.map fun t => (t.1 • ladString qe t.2) (Pi.single (det t0.2.2) 1) (det t0.2.1)).sum = (t0.1 • ladString qe t0.2) (Pi.single (det t0.2.2) 1) (det t0.2.1) := by
    intro F
    induction F with
    | nil => intro _ h; simp at h
    | cons t F ih =>
      intro hn hm ha
      obtain ⟨h1, h2⟩ := List.nodup_cons.1 hn
      rw [List.map_cons, List.sum_cons]
      by_cases e : t = t0
      · subst e
        have : (F.map fun u => (u.1 • ladString qe u.2) (Pi.single (det t.2.2) 1) (det t.2.1)).sum = 0 := by
          apply List.sum_eq_zero
          intro x hx
          obtain ⟨u, hu, rfl⟩ := List.mem_map.1 hx
          exact ha u (by simp [hu]) (fun e => h1 (e ▸ hu))
        rw [this, add_zero]
      · rw [ha t (by simp) e, zero_add]
        exact ih h2 (by rcases List.mem_cons.1 hm with h | h; exact absurd h.symm e; exact h) (fun u hu => ha u (by simp [hu]))
  rw [hcons F (List.Nodup.of_map _ hn) ht0 hamp] at hsum
  exact h0 (by rw [← hsum]; rfl)

end QF
