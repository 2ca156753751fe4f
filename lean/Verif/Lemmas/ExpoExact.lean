import Verif.Props.Expo
import Verif.Lemmas.Rotate
import Verif.Lemmas.QFT

/-!
The gates of the circuits made by `exponentiate_pauli_string` (without control) are applied exactly by the simulator.
-/
namespace QF

theorem exact_Rz {t : ℕ} {θ : ℝ} {g : Gate} (h : makeGate "Rz" t t θ = .ok g) : ExactGate g := by
  have hm := made_of_makeGate h
  refine ⟨api_unitary (.make h), made_fast hm (by decide), ?_⟩
  generalize hs : "Rz" = s at hm
  cases hm <;> first | (exfalso; revert hs; decide) | skip
  have key : ∀ x : ℂ, x.re = 0 → Res (Complex.exp x) := fun x hx _ => by rw [Complex.norm_exp, hx, Real.exp_zero]; norm_num
  exact .mat1 (key _ (by simp)) .zero .zero (key _ (by simp))

theorem toZc_exact {c : Circuit} : ∀ g ∈ toZc c, ExactGate g := by
  intro g hg
  obtain ⟨x, _, hx⟩ := List.mem_flatMap.1 hg
  split at hx
  · rw [List.mem_singleton.1 hx]; exact exact_H _
  · split at hx
    · rw [List.mem_singleton.1 hx]; exact exact_Rxh _
    · cases hx

theorem adjoint_exact {c : Circuit} (h : ∀ g ∈ c, ApiGate g ∧ ExactGate g) : ∀ g ∈ c.adjoint, ExactGate g := by
  intro g hg
  obtain ⟨x, hx, rfl⟩ := List.mem_map.1 (List.mem_reverse.1 hg)
  exact (h x hx).2.adjoint (h x hx).1

theorem cxChain_exact {c : Circuit} (hn : (c.map Gate.target).Nodup) : ∀ g ∈ cxChain none c, ApiGate g ∧ ExactGate g := by
  cases c with
  | nil => intro g hg; cases hg
  | cons x c =>
    intro g hg
    obtain ⟨t, _, q, _, hne, rfl⟩ := cxChain_gates c x.target hn g hg
    exact ⟨.make (make_CX hne 0), (C08_hypotheses_constant_gates (make_CX hne 0) rfl).1⟩

/-- every gate of an exponentiated Pauli string is applied exactly -/
theorem expo_exact {z : ℂ} {c : Circuit} (h : c.IPauliString) {C : Circuit} {ph : ℂ}
    (hr : exponentiatePauliString z c = .ok (C, ph)) : ∀ g ∈ C, ExactGate g := by
  unfold exponentiatePauliString at hr
  split at hr
  · cases hr
  split at hr
  · cases hr; simp
  obtain ⟨hp, hn⟩ := noI_pauli h
  obtain ⟨o, p, h1, h2⟩ := expoFold_ok c ⟨[], [], [], none, none⟩ h.gates (by simpa using hn) rfl
  rw [h1, except_ok_bind] at hr
  simp only [Bool.false_eq_true, if_false, List.nil_append, addCircuit_eq, pure, Except.pure, except_ok_bind] at hr
  have hT : ∀ g ∈ toZc c, ApiGate g ∧ ExactGate g := fun g hg => ⟨toZc_api _ g hg, toZc_exact g hg⟩
  have hW := cxChain_exact hn
  cases p with
  | none => simp [pyGate3Opt, bind, Except.bind] at hr
  | some p =>
    obtain ⟨R, hR⟩ := makeGate_ok_of_name (ty := "Rz") (t := p) (c := p) (-2 * z.im) (.inl ⟨rfl, by decide⟩)
    simp only [pyGate3Opt, py3_real, hR, except_ok_bind] at hr
    cases hr
    intro g hg
    simp only [Circuit.addGate, List.mem_append, List.mem_singleton] at hg
    rcases hg with (((hg | hg) | rfl) | hg) | hg
    · exact (hT g hg).2
    · exact (hW g hg).2
    · exact exact_Rz hR
    · exact adjoint_exact hW g hg
    · exact adjoint_exact hT g hg

end QF
