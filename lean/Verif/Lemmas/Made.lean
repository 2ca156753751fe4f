import Verif.Lemmas.Gate
namespace QF
/-- the matrix of `A(p)` -/
noncomputable def matA (p : ℝ) : Mat4 :=
  !![1, 0, 0, 0; 0, (Real.cos p : ℂ), (Real.sin p : ℂ), 0; 0, (Real.sin p : ℂ), -(Real.cos p : ℂ), 0; 0, 0, 0, 1]
/-- the matrix of the anti-controlled X -/
def matAC : Mat4 := !![0, 1, 0, 0; 1, 0, 0, 0; 0, 0, 1, 0; 0, 0, 0, 1]
/-- the matrix of SWAP -/
def matSWAP : Mat4 := !![1, 0, 0, 0; 0, 0, 1, 0; 0, 1, 0, 0; 0, 0, 0, 1]

/-- the possible results of `makeGate`, one constructor per gate name -/
inductive Made : String → ℕ → ℕ → ℝ → Gate → Prop
  | X (t : ℕ) (θ : ℝ) : Made "X" t t θ ⟨"X", t, t, mat1 0 1 1 0, none⟩
  | Y (t : ℕ) (θ : ℝ) : Made "Y" t t θ ⟨"Y", t, t, mat1 0 (-Complex.I) Complex.I 0, none⟩
  | Z (t : ℕ) (θ : ℝ) : Made "Z" t t θ ⟨"Z", t, t, mat1 1 0 0 (-1), none⟩
  | H (t : ℕ) (θ : ℝ) : Made "H" t t θ ⟨"H", t, t, mat1 ((1 / Real.sqrt 2 : ℝ) : ℂ) ((1 / Real.sqrt 2 : ℝ) : ℂ) ((1 / Real.sqrt 2 : ℝ) : ℂ) (-((1 / Real.sqrt 2 : ℝ) : ℂ)), none⟩
  | R (t : ℕ) (θ : ℝ) : Made "R" t t θ ⟨"R", t, t, mat1 1 0 0 (Complex.exp (Complex.I * (normalizeAngle θ (2 * Real.pi) : ℝ))), some (normalizeAngle θ (2 * Real.pi), true)⟩
  | Rx (t : ℕ) (θ : ℝ) : Made "Rx" t t θ ⟨"Rx", t, t, mat1 (Real.cos (0.5 * normalizeAngle θ (4 * Real.pi)) : ℝ) (-(Complex.I * (Real.sin (0.5 * normalizeAngle θ (4 * Real.pi)) : ℝ))) (-(Complex.I * (Real.sin (0.5 * normalizeAngle θ (4 * Real.pi)) : ℝ))) (Real.cos (0.5 * normalizeAngle θ (4 * Real.pi)) : ℝ), some (normalizeAngle θ (4 * Real.pi), true)⟩
  | Ry (t : ℕ) (θ : ℝ) : Made "Ry" t t θ ⟨"Ry", t, t, mat1 (Real.cos (0.5 * normalizeAngle θ (4 * Real.pi)) : ℝ) (-((Real.sin (0.5 * normalizeAngle θ (4 * Real.pi)) : ℝ) : ℂ)) (Real.sin (0.5 * normalizeAngle θ (4 * Real.pi)) : ℝ) (Real.cos (0.5 * normalizeAngle θ (4 * Real.pi)) : ℝ), some (normalizeAngle θ (4 * Real.pi), true)⟩
  | Rz (t : ℕ) (θ : ℝ) : Made "Rz" t t θ ⟨"Rz", t, t, mat1 (Complex.exp (-Complex.I * 0.5 * (normalizeAngle θ (4 * Real.pi) : ℝ))) 0 0 (Complex.exp (Complex.I * 0.5 * (normalizeAngle θ (4 * Real.pi) : ℝ))), some (normalizeAngle θ (4 * Real.pi), true)⟩
  | V (t : ℕ) (θ : ℝ) : Made "V" t t θ ⟨"V", t, t, mat1 (Complex.I * 0.5 + 0.5) (-Complex.I * 0.5 + 0.5) (-Complex.I * 0.5 + 0.5) (Complex.I * 0.5 + 0.5), none⟩
  | S (t : ℕ) (θ : ℝ) : Made "S" t t θ ⟨"S", t, t, mat1 1 0 0 Complex.I, none⟩
  | T (t : ℕ) (θ : ℝ) : Made "T" t t θ ⟨"T", t, t, mat1 1 0 0 ((1 + Complex.I) / (Real.sqrt 2 : ℂ)), none⟩
  | I (t : ℕ) (θ : ℝ) : Made "I" t t θ ⟨"I", t, t, mat1 1 0 0 1, none⟩
  | A (t c : ℕ) (θ : ℝ) (h : t ≠ c) : Made "A" t c θ ⟨"A", t, c, matA (normalizeAngle θ (2 * Real.pi)), some (normalizeAngle θ (2 * Real.pi), false)⟩
  | cX (t c : ℕ) (θ : ℝ) (h : t ≠ c) : Made "cX" t c θ ⟨"cX", t, c, matC 0 1 1 0, none⟩
  | CNOT (t c : ℕ) (θ : ℝ) (h : t ≠ c) : Made "CNOT" t c θ ⟨"CNOT", t, c, matC 0 1 1 0, none⟩
  | acX (t c : ℕ) (θ : ℝ) (h : t ≠ c) : Made "acX" t c θ ⟨"acX", t, c, matAC, none⟩
  | aCNOT (t c : ℕ) (θ : ℝ) (h : t ≠ c) : Made "aCNOT" t c θ ⟨"aCNOT", t, c, matAC, none⟩
  | cY (t c : ℕ) (θ : ℝ) (h : t ≠ c) : Made "cY" t c θ ⟨"cY", t, c, matC 0 (-Complex.I) Complex.I 0, none⟩
  | cZ (t c : ℕ) (θ : ℝ) (h : t ≠ c) : Made "cZ" t c θ ⟨"cZ", t, c, matC 1 0 0 (-1), none⟩
  | cR (t c : ℕ) (θ : ℝ) (h : t ≠ c) : Made "cR" t c θ ⟨"cR", t, c, matC 1 0 0 (Complex.exp (Complex.I * (normalizeAngle θ (2 * Real.pi) : ℝ))), some (normalizeAngle θ (2 * Real.pi), true)⟩
  | cV (t c : ℕ) (θ : ℝ) (h : t ≠ c) : Made "cV" t c θ ⟨"cV", t, c, matC (Complex.I * 0.5 + 0.5) (-Complex.I * 0.5 + 0.5) (-Complex.I * 0.5 + 0.5) (Complex.I * 0.5 + 0.5), none⟩
  | cRz (t c : ℕ) (θ : ℝ) (h : t ≠ c) : Made "cRz" t c θ ⟨"cRz", t, c, matC (Complex.exp (-Complex.I * 0.5 * (normalizeAngle θ (4 * Real.pi) : ℝ))) 0 0 (Complex.exp (Complex.I * 0.5 * (normalizeAngle θ (4 * Real.pi) : ℝ))), some (normalizeAngle θ (4 * Real.pi), true)⟩
  | SWAP (t c : ℕ) (θ : ℝ) (h : t ≠ c) : Made "SWAP" t c θ ⟨"SWAP", t, c, matSWAP, none⟩

theorem made_of_makeGate {ty : String} {t c : ℕ} {θ : ℝ} {g : Gate} (h : makeGate ty t c θ = .ok g) :
    Made ty t c θ g := by
  unfold makeGate at h
  by_cases htc : t = c
  · subst htc
    rw [if_pos rfl] at h
    by_cases h1 : ty = "X"
    · subst h1; rw [if_pos rfl] at h; cases h; exact .X _ _
    rw [if_neg h1] at h; clear h1
    by_cases h1 : ty = "Y"
    · subst h1; rw [if_pos rfl] at h; cases h; exact .Y _ _
    rw [if_neg h1] at h; clear h1
    by_cases h1 : ty = "Z"
    · subst h1; rw [if_pos rfl] at h; cases h; exact .Z _ _
    rw [if_neg h1] at h; clear h1
    by_cases h1 : ty = "H"
    · subst h1; rw [if_pos rfl] at h; cases h; exact .H _ _
    rw [if_neg h1] at h; clear h1
    by_cases h1 : ty = "R"
    · subst h1; rw [if_pos rfl] at h; cases h; exact .R _ _
    rw [if_neg h1] at h; clear h1
    by_cases h1 : ty = "Rx"
    · subst h1; rw [if_pos rfl] at h; cases h; exact .Rx _ _
    rw [if_neg h1] at h; clear h1
    by_cases h1 : ty = "Ry"
    · subst h1; rw [if_pos rfl] at h; cases h; exact .Ry _ _
    rw [if_neg h1] at h; clear h1
    by_cases h1 : ty = "Rz"
    · subst h1; rw [if_pos rfl] at h; cases h; exact .Rz _ _
    rw [if_neg h1] at h; clear h1
    by_cases h1 : ty = "V"
    · subst h1; rw [if_pos rfl] at h; cases h; exact .V _ _
    rw [if_neg h1] at h; clear h1
    by_cases h1 : ty = "S"
    · subst h1; rw [if_pos rfl] at h; cases h; exact .S _ _
    rw [if_neg h1] at h; clear h1
    by_cases h1 : ty = "T"
    · subst h1; rw [if_pos rfl] at h; cases h; exact .T _ _
    rw [if_neg h1] at h; clear h1
    by_cases h1 : ty = "I"
    · subst h1; rw [if_pos rfl] at h; cases h; exact .I _ _
    rw [if_neg h1] at h; clear h1
    cases h
  · rw [if_neg htc] at h
    by_cases h1 : ty = "A"
    · subst h1; rw [if_pos rfl] at h; cases h; exact .A _ _ _ htc
    rw [if_neg h1] at h; clear h1
    by_cases h1 : ty = "cX" ∨ ty = "CNOT"
    · rw [if_pos h1] at h; rcases h1 with h1 | h1
      · subst h1; cases h; exact .cX _ _ _ htc
      · subst h1; cases h; exact .CNOT _ _ _ htc
    rw [if_neg h1] at h; clear h1
    by_cases h1 : ty = "acX" ∨ ty = "aCNOT"
    · rw [if_pos h1] at h; rcases h1 with h1 | h1
      · subst h1; cases h; exact .acX _ _ _ htc
      · subst h1; cases h; exact .aCNOT _ _ _ htc
    rw [if_neg h1] at h; clear h1
    by_cases h1 : ty = "cY"
    · subst h1; rw [if_pos rfl] at h; cases h; exact .cY _ _ _ htc
    rw [if_neg h1] at h; clear h1
    by_cases h1 : ty = "cZ"
    · subst h1; rw [if_pos rfl] at h; cases h; exact .cZ _ _ _ htc
    rw [if_neg h1] at h; clear h1
    by_cases h1 : ty = "cR"
    · subst h1; rw [if_pos rfl] at h; cases h; exact .cR _ _ _ htc
    rw [if_neg h1] at h; clear h1
    by_cases h1 : ty = "cV"
    · subst h1; rw [if_pos rfl] at h; cases h; exact .cV _ _ _ htc
    rw [if_neg h1] at h; clear h1
    by_cases h1 : ty = "cRz"
    · subst h1; rw [if_pos rfl] at h; cases h; exact .cRz _ _ _ htc
    rw [if_neg h1] at h; clear h1
    by_cases h1 : ty = "SWAP"
    · subst h1; rw [if_pos rfl] at h; cases h; exact .SWAP _ _ _ htc
    rw [if_neg h1] at h; clear h1
    cases h

theorem makeGate_of_made {ty : String} {t c : ℕ} {θ : ℝ} {g : Gate} (h : Made ty t c θ g) :
    makeGate ty t c θ = .ok g := by
  cases h
  · unfold makeGate; rw [if_pos rfl]; rfl
  · unfold makeGate; rw [if_pos rfl]; rfl
  · unfold makeGate; rw [if_pos rfl]; rfl
  · unfold makeGate; rw [if_pos rfl]; rfl
  · unfold makeGate; rw [if_pos rfl]; rfl
  · unfold makeGate; rw [if_pos rfl]; rfl
  · unfold makeGate; rw [if_pos rfl]; rfl
  · unfold makeGate; rw [if_pos rfl]; rfl
  · unfold makeGate; rw [if_pos rfl]; rfl
  · unfold makeGate; rw [if_pos rfl]; rfl
  · unfold makeGate; rw [if_pos rfl]; rfl
  · unfold makeGate; rw [if_pos rfl]; rfl
  · rename_i h; unfold makeGate; rw [if_neg h]; rfl
  · rename_i h; unfold makeGate; rw [if_neg h]; rfl
  · rename_i h; unfold makeGate; rw [if_neg h]; rfl
  · rename_i h; unfold makeGate; rw [if_neg h]; rfl
  · rename_i h; unfold makeGate; rw [if_neg h]; rfl
  · rename_i h; unfold makeGate; rw [if_neg h]; rfl
  · rename_i h; unfold makeGate; rw [if_neg h]; rfl
  · rename_i h; unfold makeGate; rw [if_neg h]; rfl
  · rename_i h; unfold makeGate; rw [if_neg h]; rfl
  · rename_i h; unfold makeGate; rw [if_neg h]; rfl
  · rename_i h; unfold makeGate; rw [if_neg h]; rfl
end QF
