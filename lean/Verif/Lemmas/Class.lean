import Verif.Props.Gates

/-! Classification of the gates reachable through the API. -/
namespace QF

/-- a controlled-U gate or its adjoint, with a unitary block -/
structure IsCU (g : Gate) : Prop where
  label : g.label = "cU" ∨ g.label = "adj(cU)"
  ne : g.target ≠ g.control
  mat : ∃ a b c d, U2 a b c d ∧ g.mat = matC a b c d

/-- the adjoint of a `V` or `cV` gate -/
structure IsAdjV (g : Gate) : Prop where
  label : (g.label = "adj(V)" ∧ g.target = g.control) ∨ (g.label = "adj(cV)" ∧ g.target ≠ g.control)
  adj : ∃ h, makeGate (if g.target = g.control then "V" else "cV") g.target g.control 0 = .ok h ∧ g.adjoint = h ∧
    h.adjoint = g

/-- a gate that `make_gate` returns when called with the gate's own data -/
def IsNamed (g : Gate) : Prop := ∃ θ, makeGate g.label g.target g.control θ = .ok g

theorem isNamed_of_make {ty : String} {t c : ℕ} {θ : ℝ} {g : Gate} (h : makeGate ty t c θ = .ok g) : IsNamed g := by
  obtain ⟨h1, h2, h3, _⟩ := makeGate_spec h
  exact ⟨θ, by rw [h1, h2, h3]; exact h⟩

theorem makeV_any {t : ℕ} {θ θ' : ℝ} {g : Gate} (h : makeGate "V" t t θ = .ok g) : makeGate "V" t t θ' = .ok g := by
  have h' := makeGate_of_made (.V t θ)
  rw [h] at h'
  cases h'
  exact makeGate_of_made (.V t θ')

theorem makecV_any {t c : ℕ} {θ θ' : ℝ} {g : Gate} (htc : t ≠ c) (h : makeGate "cV" t c θ = .ok g) :
    makeGate "cV" t c θ' = .ok g := by
  have h' := makeGate_of_made (.cV t c θ htc)
  rw [h] at h'
  cases h'
  exact makeGate_of_made (.cV t c θ' htc)

theorem isCU_adjoint {g : Gate} (h : IsCU g) (hc : g.param = none → TolClean g.mat) : IsCU g.adjoint := by
  obtain ⟨hl, hne, a, b, c, d, hu, hm⟩ := h
  have hT : g.type = .Undefined := by
    unfold Gate.type; rcases hl with hl | hl <;> rw [hl] <;> decide
  refine ⟨?_, by rw [(adjoint_target g).1, (adjoint_target g).2]; exact hne, ?_⟩
  · rcases hp : g.param with _ | ⟨p, m⟩
    · rw [adjoint_param_none hp, hT]
      simp only [reduceCtorEq, if_false]
      split_ifs with h1
      · exact hl
      · rcases hl with hl | hl
        · right; rw [hl]; exact (by decide : adjLabel "cU" = "adj(cU)")
        · left; rw [hl]; exact (by decide : adjLabel "adj(cU)" = "cU")
    · rw [adjoint_param_some hp]; exact hl
  · rw [adjoint_mat_of_clean hc, hm, matC_conjTranspose]
    refine ⟨_, _, _, _, ?_, rfl⟩
    have h1 := (hu.mat1 0).conjTranspose
    rw [mat1_conjTranspose] at h1
    exact U2_of_unitary h1

theorem api_class {g : Gate} (h : ApiGate g) : IsNamed g ∨ IsAdjV g ∨ IsCU g := by
  induction h with
  | make h => exact .inl (isNamed_of_make h)
  | @adj g hg ih =>
    rcases ih with ⟨θ, h⟩ | ih | ih
    · obtain ⟨r1, r2, r3⟩ := C04_rebuild h
      by_cases hV : g.label = "V"
      · right; left
        obtain ⟨a1, a2⟩ := r2 hV
        have htc : g.target = g.control := by
          rcases made_name (made_of_makeGate h) with hn | hn
          · exact hn.1
          · rw [hV] at hn; exact absurd hn.2 (by decide)
        refine ⟨.inl ⟨a1, by rw [(adjoint_target g).1, (adjoint_target g).2, htc]⟩, g, ?_, a2, rfl⟩
        rw [(adjoint_target g).1, (adjoint_target g).2, if_pos htc]
        rw [hV, ← htc] at h
        rw [← htc]
        exact makeV_any h
      · by_cases hcV : g.label = "cV"
        · right; left
          obtain ⟨a1, a2⟩ := r3 hcV
          have htc : g.target ≠ g.control := by
            rcases made_name (made_of_makeGate h) with hn | hn
            · rw [hcV] at hn; exact absurd hn.2 (by decide)
            · exact hn.1
          refine ⟨.inr ⟨a1, by rw [(adjoint_target g).1, (adjoint_target g).2]; exact htc⟩, g, ?_, a2, rfl⟩
          rw [(adjoint_target g).1, (adjoint_target g).2, if_neg htc]
          rw [hcV] at h
          exact makecV_any htc h
        · exact .inl (isNamed_of_make (r1 ⟨hV, hcV⟩))
    · obtain ⟨_, h, hm, e, _⟩ := ih
      rw [e]; exact .inl (isNamed_of_make hm)
    · exact .inr (.inr (isCU_adjoint ih (api_clean hg.any)))
  | @ctrl u g c hu h1 hc ih =>
    right; right
    have hU := api_unitary hu
    rw [← h1] at hU
    have hU := U2_of_unitary hU
    unfold makeControlGate at hc
    split_ifs at hc with hne
    cases hc
    exact ⟨.inl rfl, hne, _, _, _, _, hU, rfl⟩

end QF
