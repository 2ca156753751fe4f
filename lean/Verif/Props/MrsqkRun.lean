import Verif.Props.Mrsqk
import Verif.Props.PsiMol
import Verif.Props.Jacobi

/-!
C98: whole MRSQK runs.
-/
namespace QF
namespace MrsqkAlg

/-! ### spin-adapted references are orthonormal -/

/-- the part of the vector `v` on the determinants of `C` -/
noncomputable def confState (v : List ℕ → ℝ) (C : List (List ℕ)) : St := (C.map fun d => ((v d : ℝ) : ℂ) • detState d).sum

theorem inner_list_sum {α : Type} (n : ℕ) (f : α → St) (χ : St) : ∀ l : List α, inner n (l.map f).sum χ = (l.map fun a => inner n (f a) χ).sum := by
  intro l
  induction l with
  | nil => simp [inner]
  | cons a l ih => rw [List.map_cons, List.sum_cons, inner_add_left, ih]; rfl

theorem confState_at {n : ℕ} (v : List ℕ → ℝ) (C : List (List ℕ)) (hC : ∀ d ∈ C, Occ d ∧ d.length = n) (hn : C.Nodup) (a : List ℕ) (ha : Occ a ∧ a.length = n) :
    confState v C (refIndex a) = if a ∈ C then ((v a : ℝ) : ℂ) else 0 := by
  induction C with
  | nil => simp [confState]
  | cons d C ih =>
    have ih := ih (fun x hx => hC x (by simp [hx])) (List.nodup_cons.1 hn).2
    have : confState v (d :: C) = ((v d : ℝ) : ℂ) • detState d + confState v C := by simp [confState]
    rw [this, Pi.add_apply, ih, Pi.smul_apply, detState, Pi.single_apply]
    by_cases h : a = d
    · subst h
      rw [if_pos rfl, if_neg (List.nodup_cons.1 hn).1]; simp
    · rw [if_neg fun e => h (refIndex_inj ha.1 (hC d (by simp)).1 (by rw [ha.2, (hC d (by simp)).2]) e)]
      simp [h]

theorem inner_conf {n : ℕ} (v : List ℕ → ℝ) (C : List (List ℕ)) (hC : ∀ d ∈ C, Occ d ∧ d.length = n) (ψ : St) :
    inner n (confState v C) ψ = (C.map fun d => ((v d : ℝ) : ℂ) * ψ (refIndex d)).sum := by
  unfold confState
  rw [inner_list_sum]
  congr 1
  refine List.map_congr_left fun d hd => ?_
  rw [inner_smul_left', Complex.conj_ofReal, detState, inner_single (by rw [← (hC d hd).2]; exact refIndex_lt (hC d hd).1)]

theorem saRef_state (v : List ℕ → ℝ) (C : List (List ℕ)) (h : weight v C ≠ 0) :
    refState (saRef v C) = (((Real.sqrt (weight v C))⁻¹ : ℝ) : ℂ) • confState v C := by
  classical
  unfold refState saRef confState
  rw [List.map_map, List.smul_sum, List.map_map]
  congr 1
  refine List.map_congr_left fun d _ => ?_
  simp only [Function.comp_apply, if_neg h, Option.getD_some]
  rw [smul_smul, ← Complex.ofReal_mul, div_eq_inv_mul]

theorem weight_nonneg (v : List ℕ → ℝ) (C : List (List ℕ)) : 0 ≤ weight v C := by
  unfold weight
  refine List.sum_nonneg fun x hx => ?_
  obtain ⟨d, _, rfl⟩ := List.mem_map.1 hx
  positivity

/-- a spin-adapted reference is normalised -/
theorem saRef_norm {n : ℕ} (v : List ℕ → ℝ) (C : List (List ℕ)) (hC : ∀ d ∈ C, Occ d ∧ d.length = n) (hn : C.Nodup) (h : weight v C ≠ 0) :
    inner n (refState (saRef v C)) (refState (saRef v C)) = 1 := by
  have hw := (weight_nonneg v C).lt_of_ne (Ne.symm h)
  rw [saRef_state v C h, inner_smul_left', inner_smul_right', inner_conf v C hC, Complex.conj_ofReal]
  have : (C.map fun d => ((v d : ℝ) : ℂ) * confState v C (refIndex d)).sum = ((weight v C : ℝ) : ℂ) := by
    rw [List.map_congr_left (g := fun d => ((v d ^ 2 : ℝ) : ℂ)) (fun d hd => by
      rw [confState_at v C hC hn d (hC d hd), if_pos hd]; push_cast; ring)]
    unfold weight
    have := map_list_sum Complex.ofRealHom (C.map fun d => v d ^ 2)
    rw [List.map_map] at this
    exact this.symm
  rw [this, ← Complex.ofReal_mul, ← Complex.ofReal_mul, ← mul_assoc]
  have hs : Real.sqrt (weight v C) ≠ 0 := (Real.sqrt_pos.2 hw).ne'
  have : (Real.sqrt (weight v C))⁻¹ * (Real.sqrt (weight v C))⁻¹ * weight v C = 1 := by
    nth_rewrite 3 [← Real.mul_self_sqrt hw.le]
    field_simp
  rw [this]; simp

/-- references on disjoint configurations are orthogonal -/
theorem saRef_orthogonal {n : ℕ} (v : List ℕ → ℝ) (C C' : List (List ℕ)) (hC : ∀ d ∈ C, Occ d ∧ d.length = n) (hC' : ∀ d ∈ C', Occ d ∧ d.length = n)
    (hn' : C'.Nodup) (hd : ∀ d ∈ C, d ∉ C') (h : weight v C ≠ 0) (h' : weight v C' ≠ 0) :
    inner n (refState (saRef v C)) (refState (saRef v C')) = 0 := by
  rw [saRef_state v C h, saRef_state v C' h', inner_smul_left', inner_smul_right', inner_conf v C hC]
  have : (C.map fun d => ((v d : ℝ) : ℂ) * confState v C' (refIndex d)).sum = 0 := by
    refine List.sum_eq_zero fun x hx => ?_
    obtain ⟨d, hd', rfl⟩ := List.mem_map.1 hx
    rw [confState_at v C' hC' hn' d (hC d hd'), if_neg (hd d hd'), mul_zero]
  rw [this]; simp

theorem saRef_ok {n : ℕ} (v : List ℕ → ℝ) (C : List (List ℕ)) (hC : ∀ d ∈ C, Occ d ∧ d.length = n) (hn : C.Nodup) (hne : C ≠ []) :
    (weight v C ≠ 0 → SaOk n (saRef v C)) ∧ (weight v C = 0 → ∃ x ∈ saRef v C, x.1 = none) ∧ (saRef v C).map Prod.snd = C := by
  classical
  have hsnd : (saRef v C).map Prod.snd = C := by
    unfold saRef; rw [List.map_map]; exact List.map_id C
  refine ⟨fun h => ⟨fun x hx => ?_, fun x hx => ?_, by rw [hsnd]; exact hn⟩, fun h => ?_, hsnd⟩
  · obtain ⟨d, -, rfl⟩ := List.mem_map.1 hx
    simp [if_neg h]
  · obtain ⟨d, hd, rfl⟩ := List.mem_map.1 hx
    exact hC d hd
  · obtain ⟨d, C, rfl⟩ := List.exists_cons_of_ne_nil hne
    exact ⟨_, List.mem_map_of_mem (List.mem_cons_self ..), by simp [if_pos h]⟩

/-! ### the run -/

/-- C98: the options that are refused before anything is computed. -/
theorem C98_bad_options (fuel : ℕ) (eig : EigOracle) (A : MrsqkAlg) (h : A.statePrepType ≠ "occupation_list" ∨ A.referenceGenerator ≠ "SRQK") :
    A.run fuel eig = .error .valueError := by
  have : A.references fuel eig = .error .valueError := by
    unfold references
    by_cases h1 : A.statePrepType ≠ "occupation_list"
    · rw [if_pos h1]
    · rw [if_neg h1, if_pos (h.resolve_left h1)]
  unfold run; rw [this]; rfl

/-- C98: the preliminary SRQK calculation always succeeds; the references are built from its states and results. -/
theorem C98_preliminary {eig : EigOracle} (hE : DescEig eig) {A : MrsqkAlg} (hA : A.Ready) (hp : A.statePrepType = "occupation_list")
    (hg : A.referenceGenerator = "SRQK") : ∃ (w : ℕ → List ℂ) (rank : ℕ) (R : QsdResult),
      (∀ m : ℕ, (w m).length = 2 ^ A.nqb ∧ TrotterState A.ham A.trotterNumberO (m * A.dtO) (detState A.ref) (vec (w m))) ∧
      QsdOk A.nqb (A.sO + 1) A.ham.op (fun m => vec (w m)) rank 0 R ∧
      ∀ fuel, A.references fuel eig = (do
        let dets ← A.buildRefs R ((List.range (A.sO + 1)).map w)
        match A.targetRoot with
        | none => .error .notImplemented
        | some t =>
          if A.useSa then do
            let sa ← A.buildSaRefs fuel eig t dets
            pure (t, .sa sa)
          else pure (t, .dets dets)) := by
  obtain ⟨U, eU, hU⟩ := refprep_eq A.ref
  have hU : U = occGates A.ref := hU
  subst hU
  have hS : (A.srqk (occGates A.ref)).Ready := by
    refine ⟨?_, hA.ham, hA.steps.2⟩
    have := occGates_fits A.ref
    rw [hA.ref.2] at this; exact this
  have hapi : ∀ g ∈ (A.srqk (occGates A.ref)).uprep, ApiGate g := by
    intro g hg
    obtain ⟨p, -, rfl⟩ := List.mem_map.1 hg
    exact .make (make_X p.2 0)
  have h0 : (occGates A.ref).op (Computer.init A.nqb).psi = detState A.ref := by
    rw [(C60_init A.nqb).2, occGates, refprep_op A.ref hA.ref.1 0 0]; simp [detState]
  obtain ⟨w, l1, v1, -, hfull, rank, hr, hrun⟩ := C98_srqk hE (A.srqk (occGates A.ref)) hS hapi (Nat.le_add_left ..)
  obtain ⟨R, e, hR⟩ := hrun 0 ⟨by omega, by omega⟩
  refine ⟨w, rank, R, fun m => ⟨l1 m, ?_⟩, hR, fun fuel => ?_⟩
  · rw [← h0]; exact (v1 m).1
  · unfold references
    rw [if_neg (by simp [hp]), if_neg (by simp [hg]), eU, except_ok_bind, hfull 0 true R (.inr (.inl rfl)) e, except_ok_bind]
    rfl

/-- what a successful selection implies -/
theorem buildRefs_inv {A : MrsqkAlg} (hA : A.Ready) {R : QsdResult} {om : List (List ℂ)} (hs : R.eigenvalues.Pairwise fun a b => a.re ≤ b.re)
    {dets : List (List ℕ)} (h : A.buildRefs R om = .ok dets) : ∃ t, A.targetRoot = some t ∧ A.ref ∈ dets ∧
      dets.length = (if A.useSa then 2 * A.d else A.d) ∧ dets.Nodup ∧ ∀ r ∈ dets, Occ r ∧ r.length = A.nqb := by
  obtain ⟨e1, e2, e3⟩ := C98_select_errors A R om
  rcases ht : A.targetRoot with _ | t
  · rw [e1 ht] at h; cases h
  · refine ⟨t, rfl, ?_⟩
    by_cases hr : -((min (A.sO + 1) R.eigenvalues.length : ℕ) : ℤ) ≤ t ∧ t < (min (A.sO + 1) R.eigenvalues.length : ℕ)
    · by_cases hn : (if A.useSa then 2 * A.d else A.d) ≤ 2 ^ A.nqb
      · obtain ⟨L, L', l1, l2, -, l3, l4⟩ := C98_select A R om hs hA.size.2 ht rfl hr.1 hr.2 hn
        by_cases hc : A.ref ∈ L ∧ A.ref ∈ L'
        · rw [l3 hc] at h
          obtain rfl := Except.ok.inj h
          cases A.usePhase with
          | true => exact ⟨hc.2, l1.number, l1.distinct, l1.dets⟩
          | false => exact ⟨hc.1, l2.1, l2.2.1, l2.2.2⟩
        · rw [l4 hc] at h; cases h
      · rw [e3 t ht (by omega)] at h; cases h
    · rw [e2 t ht hr] at h; cases h

/-- C98: MRSQK with spin-adapted references (the default), once the references have been built.  They are `d` references on whole, mutually
disjoint configurations.  If one of them is undefined (the classical CI vector vanishes on its configuration) the run fails; otherwise they are
orthonormal, and the run returns the Ritz values of the Hamiltonian in their Trotterized evolutions, provided the target root exists in every
diagonalization that is made. -/
theorem C98_run_sa {eig : EigOracle} (hE : DescEig eig) {A : MrsqkAlg} (hA : A.Ready) : ∃ N, ∀ fuel ≥ N, ∀ t sa,
    A.references fuel eig = .ok (t, .sa sa) →
      A.targetRoot = some t ∧ sa.length = A.d ∧ 1 ≤ A.d ∧ (∀ r ∈ sa, ∃ d, Occ d ∧ d.length = A.nqb ∧ IsConfig d (r.map Prod.snd)) ∧
      (sa.Pairwise fun r r' => ∀ x ∈ r, ∀ y ∈ r', x.2 ≠ y.2) ∧
      ((∃ r ∈ sa, ∃ x ∈ r, x.1 = none) → A.run fuel eig = .error .valueError) ∧
      ((∀ r ∈ sa, ∀ x ∈ r, x.1 ≠ none) →
        (∀ r ∈ sa, inner A.nqb (refState r) (refState r) = 1) ∧ (sa.Pairwise fun r r' => inner A.nqb (refState r) (refState r') = 0) ∧
        ∃ (φ : ℕ → St) (rank : ℕ), 1 ≤ rank ∧ rank ≤ A.d * (A.s + 1) ∧
          (∀ i r, sa[i]? = some r → ∀ m < A.s + 1, TrotterState A.ham A.trotterNumber (m * A.mrDt) (refState r) (φ (i * (A.s + 1) + m))) ∧
          ((-(rank : ℤ) ≤ t ∧ t < rank) ∧ (A.diagEach = false ∨ t = 0 ∨ t = -1) → ∃ R, A.run fuel eig = .ok R ∧
            QsdOk A.nqb (A.d * (A.s + 1)) A.ham.op φ rank t R ∧
            (rank = A.d * (A.s + 1) → ∀ r ∈ sa, R.egs ≤ energy A.nqb A.ham.op (refState r))) ∧
          (¬((-(rank : ℤ) ≤ t ∧ t < rank) ∧ (A.diagEach = false ∨ t = 0 ∨ t = -1)) → A.run fuel eig = .error .indexError)) := by
  by_cases hopt : A.statePrepType = "occupation_list" ∧ A.referenceGenerator = "SRQK"
  swap
  · refine ⟨0, fun fuel _ t sa h => ?_⟩
    exfalso
    unfold references at h
    by_cases h1 : A.statePrepType ≠ "occupation_list"
    · rw [if_pos h1] at h; cases h
    · rw [if_neg h1, if_pos fun h2 => hopt ⟨not_not.1 h1, h2⟩] at h; cases h
  obtain ⟨w, rank0, R0, hw, hR0, hform⟩ := C98_preliminary hE hA hopt.1 hopt.2
  by_cases hb : ∃ dets, A.buildRefs R0 ((List.range (A.sO + 1)).map w) = .ok dets
  swap
  · refine ⟨0, fun fuel _ t sa h => ?_⟩
    exfalso
    rw [hform] at h
    rcases hx : A.buildRefs R0 ((List.range (A.sO + 1)).map w) with e | dets
    · rw [hx] at h; cases h
    · exact hb ⟨dets, hx⟩
  obtain ⟨dets, hdets⟩ := hb
  obtain ⟨t0, ht0, hmem, hnum, -, hocc⟩ := buildRefs_inv hA hR0.sorted hdets
  obtain ⟨d0, ds, rfl⟩ := List.exists_cons_of_ne_nil (List.ne_nil_of_mem hmem)
  have hform' : ∀ fuel, A.references fuel eig = (if A.useSa then do
            let sa ← A.buildSaRefs fuel eig t0 (d0 :: ds)
            pure (t0, .sa sa)
          else pure (t0, .dets (d0 :: ds))) := by
    intro fuel
    rw [hform, hdets, except_ok_bind, ht0]
  by_cases huse : A.useSa = true
  swap
  · refine ⟨0, fun fuel _ t sa h => ?_⟩
    rw [hform', if_neg huse] at h; cases h
  by_cases hfast : A.fast = true
  swap
  · refine ⟨0, fun fuel _ t sa h => ?_⟩
    rw [hform', if_pos huse] at h
    unfold buildSaRefs at h
    rw [if_pos (by simpa using hfast)] at h; cases h
  obtain ⟨N, hN⟩ := C98_sa_refs hE hA hfast d0 ds hocc t0
  refine ⟨N, fun fuel hf t sa h => ?_⟩
  obtain ⟨Cs, V, lam, hC, hV, h1, h2⟩ := hN fuel hf
  have href := h
  rw [hform', if_pos huse] at h
  obtain ⟨sa', hsa, h⟩ := bindOk h
  obtain ⟨rfl, rfl⟩ : t0 = t ∧ sa' = sa := by
    have := Except.ok.inj h
    simpa using this
  have hroot : ∃ col, UsesRoot Cs.flatten.length (fun n => (V n d0).re) t0 col := by
    by_contra hc
    rw [h2 (.inl hc)] at hsa; cases hsa
  have hdn : A.d ≤ Cs.length := by
    by_contra hc
    rw [h2 (.inr (by omega))] at hsa; cases hsa
  obtain ⟨col, hcol⟩ := hroot
  obtain ⟨P, hP, hsaP⟩ := h1 col hcol hdn
  rw [hsa] at hsaP
  obtain rfl := Except.ok.inj hsaP
  set v : List ℕ → ℝ := fun d => (V col d).re with hv
  rw [if_pos huse] at hnum
  have hd1 : 1 ≤ A.d := by
    rw [List.length_cons] at hnum; omega
  obtain ⟨o1, o2⟩ := Configs.occ hC hocc
  have hPC : ∀ C ∈ P, C ∈ Cs := fun C hC' => hP.from_configs.subset hC'
  have hPocc : ∀ C ∈ P, ∀ d ∈ C, Occ d ∧ d.length = A.nqb := fun C hC' d hd => o1 d (List.mem_flatten.2 ⟨C, hPC C hC', hd⟩)
  have hPnd : ∀ C ∈ P, C.Nodup := fun C hC' => (List.nodup_flatten.1 hC.distinct).1 C (hPC C hC')
  have hPdis : P.Pairwise List.Disjoint := by
    obtain ⟨l, hl1, hl2⟩ := hP.from_configs
    have := (List.nodup_flatten.1 hC.distinct).2.sublist hl2
    exact (hl1.pairwise_iff (fun {a b} h => h.symm)).1 this
  have hsok : ∀ C ∈ P, (weight v C ≠ 0 → SaOk A.nqb (saRef v C)) ∧ (weight v C = 0 → ∃ x ∈ saRef v C, x.1 = none) ∧ (saRef v C).map Prod.snd = C :=
    fun C hC' => saRef_ok v C (hPocc C hC') (hPnd C hC') (o2 C (hPC C hC'))
  have hlen : (P.map (saRef v)).length = A.d := by rw [List.length_map]; exact hP.number
  have hrun : A.run fuel eig = (do let M ← A.saMats (P.map (saRef v)); qsdFull eig A.diagEach ((P.map (saRef v)).length * (A.s + 1)) t0 M) := by
    unfold run
    rw [href]; rfl
  refine ⟨ht0, hlen, hd1, ?_, ?_, ?_, ?_⟩
  · intro r hr
    obtain ⟨C, hC', rfl⟩ := List.mem_map.1 hr
    obtain ⟨d, d1, d2⟩ := hC.config C (hPC C hC')
    rw [(hsok C hC').2.2]
    exact ⟨d, (hocc d d1).1, (hocc d d1).2, d2⟩
  · rw [List.pairwise_map]
    refine hPdis.imp_of_mem ?_
    intro C C' hC1 hC2 hdis x hx y hy hxy
    have a : x.2 ∈ C := by
      have := List.mem_map_of_mem (f := Prod.snd) hx; rwa [(hsok C hC1).2.2] at this
    have b : y.2 ∈ C' := by
      have := List.mem_map_of_mem (f := Prod.snd) hy; rwa [(hsok C' hC2).2.2] at this
    exact hdis a (hxy ▸ b)
  · intro hnan
    rw [hrun, C98_sa_mats_nan hA _ (fun r hr => ?_) hnan]
    · rfl
    · obtain ⟨C, hC', rfl⟩ := List.mem_map.1 hr
      by_cases hw0 : weight v C = 0
      · refine .inr ⟨fun x hx => ?_, (hsok C hC').2.1 hw0⟩
        have := List.mem_map_of_mem (f := Prod.snd) hx
        rw [(hsok C hC').2.2] at this
        exact hPocc C hC' _ this
      · exact .inl ((hsok C hC').1 hw0)
  · intro hnum'
    have hwt : ∀ C ∈ P, weight v C ≠ 0 := by
      intro C hC' h0
      obtain ⟨x, hx, hx'⟩ := (hsok C hC').2.1 h0
      exact hnum' _ (List.mem_map_of_mem hC') x hx hx'
    have hnorm : ∀ r ∈ P.map (saRef v), inner A.nqb (refState r) (refState r) = 1 := by
      intro r hr
      obtain ⟨C, hC', rfl⟩ := List.mem_map.1 hr
      exact saRef_norm v C (hPocc C hC') (hPnd C hC') (hwt C hC')
    obtain ⟨M, φ, eM, hG, hφ⟩ := C98_sa_mats hA (P.map (saRef v)) (fun r hr => by
      obtain ⟨C, hC', rfl⟩ := List.mem_map.1 hr
      exact (hsok C hC').1 (hwt C hC'))
    rw [hlen] at hG
    have hk : 1 ≤ A.d * (A.s + 1) := Nat.mul_pos hd1 (Nat.succ_pos _)
    have nφ : ∀ p < A.d * (A.s + 1), inner A.nqb (φ p) (φ p) = 1 := by
      intro p hp
      have hq : p / (A.s + 1) < (P.map (saRef v)).length := by rw [hlen]; exact Nat.div_lt_of_lt_mul (by rwa [mul_comm])
      have := hφ (p / (A.s + 1)) _ (List.getElem?_eq_getElem hq) (p % (A.s + 1)) (Nat.mod_lt _ (Nat.succ_pos _))
      rw [Nat.div_add_mod'] at this
      rw [QiteAlg.trotterState_norm hA.ham this]
      exact hnorm _ (List.getElem_mem hq)
    have hrun' : A.run fuel eig = qsdFull eig A.diagEach (A.d * (A.s + 1)) t0 M := by
      rw [hrun, eM, except_ok_bind, hlen]
    obtain ⟨r1, r2⟩ := C83_common_run hE (hermitian_of_real hA.ham) hG nφ hk t0
    obtain ⟨s1, s2⟩ := C98_each_step hE (hermitian_of_real hA.ham) hG nφ hk t0
    refine ⟨hnorm, ?_, φ, ((eig (A.d * (A.s + 1)) M.1).1.filter fun z => open Classical in decide (1e-15 < z.re)).length, ?_, ?_, hφ, ?_, ?_⟩
    · rw [List.pairwise_map]
      refine hPdis.imp_of_mem ?_
      intro C C' hC1 hC2 hdis
      exact saRef_orthogonal v C C' (hPocc C hC1) (hPocc C' hC2) (hPnd C' hC2) (fun d a b => hdis a b) (hwt C hC1) (hwt C' hC2)
    · exact List.length_pos_iff.2 (kept_pos hE hG.overlap nφ hk)
    · refine (List.length_filter_le _ _).trans ?_
      have hSh : ∀ i < A.d * (A.s + 1), ∀ j < A.d * (A.s + 1), (starRingEnd ℂ) (M.1 i j) = M.1 j i := fun i hi j hj => by
        rw [hG.overlap i hi j hj, hG.overlap j hj i hi, inner_conj]
      rw [(hE _ _ hSh).1.1]
    · rintro ⟨hc1, hc2⟩
      obtain ⟨R, e1, hR⟩ := r1 hc1
      refine ⟨R, ?_, hR, fun hfull r hr => ?_⟩
      · rw [hrun']
        cases hde : A.diagEach with
        | false => rw [qsdFull_false, e1]
        | true => rw [s1 (by simpa [hde] using hc2), e1]
      · obtain ⟨i, hi, rfl⟩ := List.getElem_of_mem hr
        have hz := hφ i _ (List.getElem?_eq_getElem hi) 0 (Nat.succ_pos _)
        rw [Nat.cast_zero, zero_mul, add_zero] at hz
        have hlt : i * (A.s + 1) < A.d * (A.s + 1) := Nat.mul_lt_mul_of_pos_right (by rwa [hlen] at hi) (Nat.succ_pos _)
        rw [← trotterState_zero hz]
        exact hR.below hfull hlt (nφ _ hlt)
    · intro hc
      rw [hrun']
      cases hde : A.diagEach with
      | false => rw [qsdFull_false]; exact r2 fun h => hc ⟨h, .inl hde⟩
      | true =>
        by_cases ht : t0 = 0 ∨ t0 = -1
        · rw [s1 ht]; exact r2 fun h => hc ⟨h, .inr ht⟩
        · exact s2 ht

/-- C98: MRSQK with determinants as references. -/
theorem C98_run_dets {eig : EigOracle} (hE : DescEig eig) {A : MrsqkAlg} (hA : A.Ready) (fuel : ℕ) (t : ℤ) (dets : List (List ℕ))
    (h : A.references fuel eig = .ok (t, .dets dets)) (he : ∀ r ∈ dets, 1 ∈ r) :
      A.targetRoot = some t ∧ dets.length = A.d ∧ dets.Nodup ∧ A.ref ∈ dets ∧ (∀ r ∈ dets, Occ r ∧ r.length = A.nqb) ∧
        ∃ (φ : ℕ → St) (rank : ℕ), 1 ≤ rank ∧ rank ≤ A.d * (A.s + 1) ∧
          (∀ i r, dets[i]? = some r → ∀ m < A.s + 1, TrotterState A.ham A.trotterNumber (m * A.mrDt) (detState r) (φ (i * (A.s + 1) + m))) ∧
          ((-(rank : ℤ) ≤ t ∧ t < rank) ∧ (A.diagEach = false ∨ t = 0 ∨ t = -1) → ∃ R, A.run fuel eig = .ok R ∧
            QsdOk A.nqb (A.d * (A.s + 1)) A.ham.op φ rank t R ∧
            (rank = A.d * (A.s + 1) → R.egs ≤ energy A.nqb A.ham.op (detState A.ref))) ∧
          (¬((-(rank : ℤ) ≤ t ∧ t < rank) ∧ (A.diagEach = false ∨ t = 0 ∨ t = -1)) → A.run fuel eig = .error .indexError) := by
  by_cases hopt : A.statePrepType = "occupation_list" ∧ A.referenceGenerator = "SRQK"
  swap
  · exfalso
    unfold references at h
    by_cases h1 : A.statePrepType ≠ "occupation_list"
    · rw [if_pos h1] at h; cases h
    · rw [if_neg h1, if_pos fun h2 => hopt ⟨not_not.1 h1, h2⟩] at h; cases h
  have href := h
  obtain ⟨w, rank0, R0, hw, hR0, hform⟩ := C98_preliminary hE hA hopt.1 hopt.2
  rw [hform] at h
  obtain ⟨dets', hdets, h⟩ := bindOk h
  obtain ⟨t0, ht0, hmem, hnum, hnd, hocc⟩ := buildRefs_inv hA hR0.sorted hdets
  rw [ht0] at h
  by_cases huse : A.useSa = true
  · simp only [if_pos huse] at h
    obtain ⟨sa, -, h⟩ := bindOk h
    cases h
  simp only [if_neg huse] at h
  obtain ⟨rfl, rfl⟩ : t0 = t ∧ dets' = dets := by
    have := Except.ok.inj h
    simpa using this
  rw [if_neg huse] at hnum
  obtain ⟨S, H, ψ, φ, e, z0, hψ, atφ, hG, nφ, hk⟩ := mrsqk_gram A.qk (qk_ready hA) dets' (fun r hr => ⟨(hocc r hr).1, (hocc r hr).2, he r hr⟩)
    (List.ne_nil_of_mem hmem) (Nat.succ_pos _)
  change GramOf A.nqb (dets'.length * (A.s + 1)) A.ham.op φ S H at hG
  change ∀ p < dets'.length * (A.s + 1), inner A.nqb (φ p) (φ p) = 1 at nφ
  change 1 ≤ dets'.length * (A.s + 1) at hk
  rw [hnum] at hG nφ hk
  have hrun' : A.run fuel eig = qsdFull eig A.diagEach (A.d * (A.s + 1)) t0 (S, H) := by
    unfold run
    rw [href, except_ok_bind]
    simp only
    rw [e, except_ok_bind, hnum]
  obtain ⟨r1, r2⟩ := C83_common_run (M := (S, H)) hE (hermitian_of_real hA.ham) hG nφ hk t0
  obtain ⟨s1, s2⟩ := C98_each_step (M := (S, H)) hE (hermitian_of_real hA.ham) hG nφ hk t0
  refine ⟨ht0, hnum, hnd, hmem, hocc, φ, ((eig (A.d * (A.s + 1)) S).1.filter fun z => open Classical in decide (1e-15 < z.re)).length, ?_, ?_, fun i r hi m hm => ?_, ?_, ?_⟩
  · exact List.length_pos_iff.2 (kept_pos hE hG.overlap nφ hk)
  · refine (List.length_filter_le _ _).trans ?_
    have hSh : ∀ i < A.d * (A.s + 1), ∀ j < A.d * (A.s + 1), (starRingEnd ℂ) (S i j) = S j i := fun i hi j hj => by
      rw [hG.overlap i hi j hj, hG.overlap j hj i hi, inner_conj]
    rw [(hE _ _ hSh).1.1]
  · have := hψ r (List.mem_of_getElem? hi) m
    rw [← atφ i r hi m hm] at this
    exact this
  · rintro ⟨hc1, hc2⟩
    obtain ⟨R, e1, hR⟩ := r1 hc1
    refine ⟨R, ?_, hR, fun hfull => ?_⟩
    · rw [hrun']
      cases hde : A.diagEach with
      | false => rw [qsdFull_false, e1]
      | true => rw [s1 (by simpa [hde] using hc2), e1]
    · obtain ⟨i, hi, hir⟩ := List.getElem_of_mem hmem
      have hlt : i * (A.s + 1) < A.d * (A.s + 1) := Nat.mul_lt_mul_of_pos_right (by rwa [hnum] at hi) (Nat.succ_pos _)
      have hz : φ (i * (A.s + 1)) = detState A.ref := by
        have := atφ i A.ref (by rw [List.getElem?_eq_getElem hi, hir]) 0 (Nat.succ_pos _)
        rw [add_zero, z0 _ hmem] at this
        exact this
      rw [← hz]
      exact hR.below hfull hlt (nφ _ hlt)
  · intro hc
    rw [hrun']
    cases hde : A.diagEach with
    | false => rw [qsdFull_false]; exact r2 fun h => hc ⟨h, .inl hde⟩
    | true =>
      by_cases ht : t0 = 0 ∨ t0 = -1
      · rw [s1 ht]; exact r2 fun h => hc ⟨h, .inr ht⟩
      · exact s2 ht

/-- the hypotheses of the theorems above can be met: with a one-dimensional preliminary space (`s_o = 0`) and a single determinant, the
selection always succeeds and yields the Hartree-Fock reference. -/
theorem C98_single_reference {eig : EigOracle} (hE : DescEig eig) {A : MrsqkAlg} (hA : A.Ready) (hp : A.statePrepType = "occupation_list")
    (hg : A.referenceGenerator = "SRQK") (hs : A.sO = 0) (hd : A.d = 1) (hsa : A.useSa = false) (ht : A.targetRoot = some 0) (fuel : ℕ) :
    A.references fuel eig = .ok (0, .dets [A.ref]) := by
  obtain ⟨w, rank, R, hw, hR, hform⟩ := C98_preliminary hE hA hp hg
  have hr1 : rank = 1 := by have := hR.number; omega
  have hl1 : R.eigenvalues.length = 1 := by rw [hR.number.1, hr1]
  have hw0 : vec (w 0) = detState A.ref := by
    have := (hw 0).2
    rw [Nat.cast_zero, zero_mul] at this
    exact trotterState_zero this
  have hlt : refIndex A.ref < 2 ^ A.nqb := by rw [← hA.ref.2]; exact refIndex_lt hA.ref.1
  have hn : 1 ≤ 2 ^ A.nqb := Nat.one_le_two_pow
  obtain ⟨L, L', a1, a2, a3, a4, -⟩ := C98_select A R ((List.range (A.sO + 1)).map w) hR.sorted hA.size.2 ht (N := 1)
    (by rw [hs, hl1]; rfl) (by simp) (by simp) (by rw [hsa, hd]; simpa using hn)
  have hc : R.eigenvectors 0 0 ≠ 0 := by
    intro h0
    have := ((hR.vectors hr1) 0 (by omega) 0 (by omega)).1
    rw [if_pos rfl] at this
    rw [hs] at this
    simp [spanState, h0, inner] at this
  have hamp : ∀ I, amp ((List.range (A.sO + 1)).map w) 0 I = detState A.ref I := by
    intro I
    rw [← hw0, hs]; rfl
  have only : ∀ (W : ℕ → ℝ) (Q : List (List ℕ)), MostImportant A.nqb 1 W Q → 0 < W (refIndex A.ref) → (∀ I, I ≠ refIndex A.ref → W I = 0) → Q = [A.ref] := by
    intro W Q hQ hpos hz
    obtain ⟨q, rfl⟩ := List.length_eq_one_iff.1 hQ.number
    by_cases h : refIndex q = refIndex A.ref
    · obtain ⟨o1, o2⟩ := hQ.dets q (by simp)
      rw [refIndex_inj o1 hA.ref.1 (by rw [o2, hA.ref.2]) h]
    · have := hQ.best q (by simp) _ hlt (by simpa using h)
      rw [hz _ h] at this
      linarith
  have hrow : pyRow 1 0 = 0 := by simp [pyRow]
  rw [hrow, hsa, hd, hs] at a1 a3
  rw [hs] at hamp
  simp only [Bool.false_eq_true, if_false, zero_add, Finset.sum_range_one, hamp] at a1 a3
  have hL' : L' = [A.ref] := only _ _ a1 (by
    simp only [detState, Pi.single_eq_same, mul_one]
    rw [Complex.normSq_pos, ne_eq, map_eq_zero]; exact hc) (fun I hI => by simp [detState, hI])
  have hL : L = [A.ref] := only _ _ (a3 hl1) (by
    simp only [detState, Pi.single_eq_same, map_one, mul_one]
    rw [Complex.normSq_pos]; exact hc) (fun I hI => by simp [detState, hI])
  subst hL hL'
  rw [hform, a4 (by simp), except_ok_bind, ht, hsa]
  simp only [ite_self]
  rfl

/-- an MRSQK calculation on two qubits: the Hamiltonian `Z₀ Z₁` and one electron in the first orbital -/
noncomputable def exampleMrsqk : MrsqkAlg :=
  { nqb := 2, ref := [1, 0], ham := [(1, [gZ 0, gZ 1])], d := 1, s := 1, sO := 0, useSa := false }

theorem exampleMrsqk_ready : exampleMrsqk.Ready := by
  refine ⟨⟨?_, rfl⟩, by simp [exampleMrsqk], ?_, by simp [exampleMrsqk]⟩
  · intro b hb
    simp [exampleMrsqk] at hb; omega
  · intro t ht
    simp only [exampleMrsqk, List.mem_cons, List.not_mem_nil, or_false] at ht
    subst ht
    refine ⟨by simp, ?_⟩
    refine ⟨?_, by simp [gZ], ?_⟩
    · intro g hg
      simp only [List.mem_cons, List.not_mem_nil, or_false] at hg
      rcases hg with rfl | rfl
      · exact pauliGate_Z 0
      · exact pauliGate_Z 1
    · intro g hg
      simp only [List.mem_cons, List.not_mem_nil, or_false] at hg
      rcases hg with rfl | rfl <;> simp [gZ, exampleMrsqk]

/-- a complete run: it returns Ritz values of `Z₀ Z₁` -/
example {eig : EigOracle} (hE : DescEig eig) : ∃ R, exampleMrsqk.run 0 eig = .ok R := by
  have href := C98_single_reference hE exampleMrsqk_ready rfl rfl rfl rfl rfl rfl 0
  obtain ⟨-, -, -, -, -, φ, rank, r1, -, -, h, -⟩ := C98_run_dets hE exampleMrsqk_ready 0 0 _ href (by simp [exampleMrsqk])
  obtain ⟨R, e, -⟩ := h ⟨⟨by omega, by omega⟩, .inr (.inl rfl)⟩
  exact ⟨R, e⟩

end MrsqkAlg
end QF
