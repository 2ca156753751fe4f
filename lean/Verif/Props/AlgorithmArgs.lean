import Verif.Props.Algorithm
import Verif.Props.AdaptTotal

/-!
C96, continued: the argument `penalty`, the irrep, what is not checked.
-/
namespace QF

open SQOperator (DescSort)
open QubitOperator (SortOracle)

/-- `v` is a dictionary with the three expected entries and no other: operators, eigenvalues, scaling factors, lists of the same length -/
def IsPenalty (v : PyVal) (ops : List QubitOperator) (eigs scales : List ℝ) : Prop :=
  ∃ d, v = .dict d ∧ (∀ p, p ∈ d ↔ p = ("operators", .list (ops.map .op)) ∨ p = ("eigenvalues", .list (eigs.map .num)) ∨ p = ("scaling_factors", .list (scales.map .num))) ∧
    ops.length = eigs.length ∧ eigs.length = scales.length

theorem mapM_asOp {l : List PyVal} {r : List QubitOperator} : l.mapM PyVal.asOp = some r ↔ l = r.map .op := by
  induction l generalizing r with
  | nil => simp [eq_comm]
  | cons x l ih =>
    cases x <;> cases r <;> simp [PyVal.asOp, List.mapM_cons, Option.bind_eq_some_iff, ih, and_comm]

theorem mapM_asNum {l : List PyVal} {r : List ℝ} : l.mapM PyVal.asNum = some r ↔ l = r.map .num := by
  induction l generalizing r with
  | nil => simp [eq_comm]
  | cons x l ih =>
    cases x <;> cases r <;> simp [PyVal.asNum, List.mapM_cons, Option.bind_eq_some_iff, ih, and_comm]

theorem asList_some {v : PyVal} {l : List PyVal} : v.asList = some l ↔ v = .list l := by
  cases v <;> simp [PyVal.asList]

theorem lookup_mem {d : List (String × PyVal)} {k : String} {v : PyVal} (h : pyLookup d k = some v) : (k, v) ∈ d := by
  unfold pyLookup at h
  obtain ⟨⟨k', v'⟩, h1, h2⟩ := Option.map_eq_some_iff.1 h
  have := List.find?_some h1
  simp only [decide_eq_true_eq] at this
  subst this
  cases h2
  exact List.mem_of_find?_eq_some h1

theorem lookup_of_mem {d : List (String × PyVal)} (hd : (d.map Prod.fst).Nodup) {k : String} {v : PyVal} (h : (k, v) ∈ d) : pyLookup d k = some v := by
  unfold pyLookup
  cases h1 : d.find? fun p => decide (p.1 = k) with
  | none => exact absurd (List.find?_eq_none.1 h1 _ h) (by simp)
  | some p =>
    have h2 := List.find?_some h1
    have h3 := List.mem_of_find?_eq_some h1
    simp only [decide_eq_true_eq] at h2
    have : p = (k, v) := List.inj_on_of_nodup_map hd h3 h h2
    rw [this]; rfl

/-- C96: the dictionary of penalties is accepted exactly if it has the three entries, of the right types and of one length; the three lists are used as given. -/
theorem C96_penalty_accepts (v : PyVal) (hv : ∀ d, v = .dict d → (d.map Prod.fst).Nodup) (ops : List QubitOperator) (eigs scales : List ℝ) :
    checkPenalty v = .ok (ops, eigs, scales) ↔ IsPenalty v ops eigs scales := by
  constructor
  · intro h
    unfold checkPenalty at h
    cases v with
    | dict d =>
      simp only at h
      split_ifs at h with h1 h2
      have hd := hv d rfl
      cases ho : (pyLookup d "operators").bind PyVal.asList with
      | none => rw [ho] at h; cases h
      | some o =>
        cases he : (pyLookup d "eigenvalues").bind PyVal.asList with
        | none => rw [ho, he] at h; cases h
        | some e =>
          cases hs : (pyLookup d "scaling_factors").bind PyVal.asList with
          | none => rw [ho, he, hs] at h; cases h
          | some s =>
            rw [ho, he, hs] at h
            simp only at h
            split_ifs at h with hl
            cases ho' : o.mapM PyVal.asOp with
            | none => rw [ho'] at h; cases h
            | some o' =>
              cases he' : e.mapM PyVal.asNum with
              | none => rw [ho', he'] at h; cases h
              | some e' =>
                cases hs' : s.mapM PyVal.asNum with
                | none => rw [ho', he', hs'] at h; cases h
                | some s' =>
                  rw [ho', he', hs'] at h
                  cases h
                  rw [mapM_asOp] at ho'
                  rw [mapM_asNum] at he' hs'
                  obtain ⟨vo, lo, mo⟩ := Option.bind_eq_some_iff.1 ho
                  obtain ⟨ve, le, me⟩ := Option.bind_eq_some_iff.1 he
                  obtain ⟨vs, ls, ms⟩ := Option.bind_eq_some_iff.1 hs
                  rw [asList_some] at mo me ms
                  subst mo me ms ho' he' hs'
                  refine ⟨d, rfl, fun p => ⟨fun hp => ?_, ?_⟩, by simpa using hl.1, by simpa using hl.2⟩
                  · have hk := h1.1 p hp
                    simp only [List.mem_cons, List.not_mem_nil, or_false] at hk
                    rcases hk with hk | hk | hk
                    · exact .inl (List.inj_on_of_nodup_map hd hp (lookup_mem lo) hk)
                    · exact .inr (.inl (List.inj_on_of_nodup_map hd hp (lookup_mem le) hk))
                    · exact .inr (.inr (List.inj_on_of_nodup_map hd hp (lookup_mem ls) hk))
                  · rintro (rfl | rfl | rfl)
                    · exact lookup_mem lo
                    · exact lookup_mem le
                    · exact lookup_mem ls
    | num x => cases h
    | op A => cases h
    | list l => cases h
    | other => cases h
  · rintro ⟨d, rfl, hm, l1, l2⟩
    have hd := hv d rfl
    have lo := lookup_of_mem hd ((hm ("operators", .list (ops.map .op))).2 (.inl rfl))
    have le := lookup_of_mem hd ((hm ("eigenvalues", .list (eigs.map .num))).2 (.inr (.inl rfl)))
    have ls := lookup_of_mem hd ((hm ("scaling_factors", .list (scales.map .num))).2 (.inr (.inr rfl)))
    unfold checkPenalty
    simp only
    rw [if_neg, if_neg]
    · rw [lo, le, ls]
      simp only [Option.bind_some, PyVal.asList]
      rw [if_neg (by simp [l1, l2]), mapM_asOp.2 rfl, mapM_asNum.2 rfl, mapM_asNum.2 rfl]
    · rw [not_not]
      intro p hp
      rcases (hm p).1 hp with rfl | rfl | rfl <;> rfl
    · rw [not_not]
      refine ⟨fun p hp => ?_, fun k hk => ?_⟩
      · rcases (hm p).1 hp with rfl | rfl | rfl <;> simp
      · simp only [List.mem_cons, List.not_mem_nil, or_false] at hk
        rcases hk with rfl | rfl | rfl
        · exact List.mem_map.2 ⟨_, (hm _).2 (.inl rfl), rfl⟩
        · exact List.mem_map.2 ⟨_, (hm _).2 (.inr (.inl rfl)), rfl⟩
        · exact List.mem_map.2 ⟨_, (hm _).2 (.inr (.inr rfl)), rfl⟩

/-- C96: anything else is a `ValueError`. -/
theorem C96_penalty_refuses (v : PyVal) (hv : ∀ d, v = .dict d → (d.map Prod.fst).Nodup) (h : ∀ ops eigs scales, ¬IsPenalty v ops eigs scales) :
    checkPenalty v = .error .valueError := by
  have hn : ∀ r, checkPenalty v ≠ .ok r := fun r hr => h _ _ _ ((C96_penalty_accepts v hv r.1 r.2.1 r.2.2).1 hr)
  unfold checkPenalty at hn ⊢
  cases v with
  | dict d =>
    simp only at hn ⊢
    split_ifs at hn ⊢ with h1 h2
    rotate_left
    · rfl
    · rfl
    have hget : ∀ k ∈ ["operators", "eigenvalues", "scaling_factors"], ∃ l, (pyLookup d k).bind PyVal.asList = some l := by
      intro k hk
      obtain ⟨⟨k', w⟩, hp, rfl⟩ := List.mem_map.1 (h1.2 k hk)
      obtain ⟨l, hl⟩ := Option.isSome_iff_exists.1 (h2 _ hp)
      exact ⟨l, by rw [lookup_of_mem (hv d rfl) hp]; exact hl⟩
    obtain ⟨o, ho⟩ := hget "operators" (by simp)
    obtain ⟨e, he⟩ := hget "eigenvalues" (by simp)
    obtain ⟨s, hs⟩ := hget "scaling_factors" (by simp)
    rw [ho, he, hs] at hn ⊢
    simp only at hn ⊢
    split_ifs at hn ⊢ with hl
    · cases ho' : o.mapM PyVal.asOp with
      | none => rfl
      | some o' =>
        cases he' : e.mapM PyVal.asNum with
        | none => rfl
        | some e' =>
          cases hs' : s.mapM PyVal.asNum with
          | none => rfl
          | some s' => rw [ho', he', hs'] at hn; exact absurd rfl (hn _)
    · rfl
  | num x => rfl
  | op A => rfl
  | list l => rfl
  | other => rfl

/-- C96: what the constructor of the ansatz algorithms accepts beyond the base constructor: penalties of the right form, and not for the projective
algorithms; an irrep of the point group of the system, if it has one. -/
theorem C96_ansatz (cls : AlgClass) (S : QSystem) (a : AlgArgs) (hv : ∀ d, a.penalty = some (.dict d) → (d.map Prod.fst).Nodup) (hH : S.hamiltonian.IsPauli)
    (hO : ∀ v ops eigs scales, a.penalty = some v → IsPenalty v ops eigs scales → ∀ A ∈ ops, A.IsPauli) :
    (∃ A, ansatzInit cls S a = .ok A) ↔ (∃ A, algorithmInit cls S a = .ok A) ∧
      (∀ v, a.penalty = some v → cls ≠ .uccnpqe ∧ cls ≠ .spqe ∧ ∃ ops eigs scales, IsPenalty v ops eigs scales) ∧
      (∀ g i, S.pointGroup = some g → a.irrep = some i → 0 ≤ i ∧ i < g.2.length) := by
  have hirr : (∃ i, chooseIrrep S.pointGroup a.irrep = .ok i) ↔ ∀ g i, S.pointGroup = some g → a.irrep = some i → 0 ≤ i ∧ i < g.2.length := by
    unfold chooseIrrep
    cases S.pointGroup with
    | none => simp
    | some g =>
      cases a.irrep with
      | none => simp
      | some i =>
        simp only [Option.some.injEq]
        constructor
        · rintro ⟨j, h⟩ g' i' rfl rfl
          split_ifs at h with hi
          exact hi
        · intro h
          rw [if_pos (h g i rfl rfl)]
          exact ⟨_, rfl⟩
  constructor
  · rintro ⟨A, h⟩
    obtain ⟨A0, e0, _, e1, hp⟩ := ansatz_base h
    refine ⟨⟨A0, e0⟩, fun v hv' => ?_, hirr.1 ⟨_, e1⟩⟩
    rcases hp with ⟨e, _⟩ | ⟨w, ops, eigs, scales, e, c1, c2, e2, _⟩
    · rw [hv'] at e; cases e
    · rw [hv'] at e; cases e
      exact ⟨c1, c2, ops, eigs, scales, (C96_penalty_accepts v (fun d hd => hv d (by rw [hv', hd])) _ _ _).1 e2⟩
  · rintro ⟨⟨A0, e0⟩, hp, hi⟩
    obtain ⟨i, e1⟩ := hirr.2 hi
    unfold ansatzInit
    rw [e0, except_ok_bind]
    cases hp' : a.penalty with
    | none =>
      simp only [pure, Except.pure, except_ok_bind, e1]
      exact ⟨_, rfl⟩
    | some v =>
      obtain ⟨c1, c2, ops, eigs, scales, hw⟩ := hp v hp'
      obtain ⟨R, _, _, e2, _⟩ := C74_penalty S.hamiltonian hH ops (hO v ops eigs scales hp' hw) eigs scales hw.choose_spec.2.2.1 hw.choose_spec.2.2.2
      simp only
      rw [if_neg (by simp [c1, c2]), (C96_penalty_accepts v (fun d hd => hv d (by rw [hp', hd])) _ _ _).2 hw, except_ok_bind]
      simp only [e2, except_ok_bind, pure, Except.pure, e1]
      exact ⟨_, rfl⟩

/-- C96: the Hamiltonian of the object is that of the system, with the penalties of the arguments (C74 says what these are). -/
theorem C96_hamiltonian (cls : AlgClass) (S : QSystem) (a : AlgArgs) (A : AlgObj) (h : ansatzInit cls S a = .ok A)
    (hv : ∀ d, a.penalty = some (.dict d) → (d.map Prod.fst).Nodup) :
    (a.penalty = none → A.ham = S.hamiltonian) ∧
    (∀ v, a.penalty = some v → ∃ ops eigs scales, IsPenalty v ops eigs scales ∧ penaltyHamiltonian false S.hamiltonian ops eigs scales = .ok A.ham) ∧ A.nl = A.ham.length := by
  obtain ⟨A0, e0, _, _, hp⟩ := ansatz_base h
  obtain ⟨-, -, -, -, g5, -, g7, -⟩ := C96_object cls S a A0 e0
  rcases hp with ⟨e, h1, h2⟩ | ⟨v, ops, eigs, scales, e, _, _, e2, e3, h4⟩
  · refine ⟨fun _ => by rw [h1, g5], fun v hv' => ?_, by rw [h2, h1, g5, g7]⟩
    rw [e] at hv'; cases hv'
  · refine ⟨fun hn => ?_, fun w hw => ?_, h4⟩
    · rw [e] at hn; cases hn
    rw [e] at hw; cases hw
    exact ⟨ops, eigs, scales, (C96_penalty_accepts v (fun d hd => hv d (by rw [e, hd])) _ _ _).1 e2, e3⟩

/-- C96: the irrep: the totally symmetric one if none is requested, the requested one if it is one of the group; without a point group there is none and a request
is ignored. -/
theorem C96_irrep (cls : AlgClass) (S : QSystem) (a : AlgArgs) (A : AlgObj) (h : ansatzInit cls S a = .ok A) :
    (∀ g, S.pointGroup = some g → a.irrep = none → A.irrep = some 0) ∧
    (∀ g i, S.pointGroup = some g → a.irrep = some i → ∃ k < g.2.length, i = k ∧ A.irrep = some k) ∧ (S.pointGroup = none → A.irrep = none) := by
  obtain ⟨A0, e0, _, e1, _⟩ := ansatz_base h
  unfold chooseIrrep at e1
  refine ⟨fun g hg hi => ?_, fun g i hg hi => ?_, fun hg => ?_⟩
  · rw [hg, hi] at e1; exact (Except.ok.inj e1).symm
  · rw [hg, hi] at e1
    simp only at e1
    split_ifs at e1 with hb
    exact ⟨i.toNat, by omega, by omega, (Except.ok.inj e1).symm⟩
  · rw [hg] at e1; exact (Except.ok.inj e1).symm

/-! ### what is not checked -/

/-- a two-qubit system with the Hamiltonian `Z₀ + Z₁` and the Hartree-Fock determinant `|10⟩` -/
noncomputable def twoQubits : QSystem := { hfReference := some [1, 0], hamiltonian := [(1, [gZ 0]), (1, [gZ 1])], pointGroup := some ("c1", ["A"]) }

theorem twoQubits_num : twoQubits.hamiltonian.numQubits = 2 := rfl

theorem twoQubits_pauli : twoQubits.hamiltonian.IsPauli := by
  intro t ht g hg
  have hZ : ∀ k, ApiGate (gZ k) ∧ ((gZ k).label = "X" ∨ (gZ k).label = "Y" ∨ (gZ k).label = "Z") := fun k => ⟨.make (make_Z k 0), .inr (.inr rfl)⟩
  simp only [twoQubits, List.mem_cons, List.not_mem_nil, or_false] at ht
  rcases ht with rfl | rfl <;> simp only [List.mem_cons, List.not_mem_nil, or_false] at hg <;> subst hg <;> exact hZ _

/-- a gate outside the register reads outside of the amplitudes -/
theorem outside_register : (Computer.init 2).applyCircuit [gX 2] = .error .undefinedBehaviour := by
  have hl : (innerLoop 8 4 ⟨0, 0, 4⟩).1.flatMap Blk.idxs = [0, 1, 2, 3] := by
    rw [innerLoop, if_pos (by decide)]
    simp only [Blk.adv]
    rw [innerLoop, if_neg (by decide)]
    rfl
  have h1 : (Computer.init 2).apply1 (gX 2) = .error .undefinedBehaviour := by
    unfold Computer.apply1
    extract_lets bs bo m00 m01 m10 m11
    have t1 : ¬(‖m00‖ + ‖m11‖ > thr) := by simp [m00, m11, gX, mat1, thr]; norm_num
    rw [if_neg (fun x => t1 x.1), if_neg t1, if_pos (by simp [m01, m10, gX, mat1])]
    have e : ((innerLoop bo (Computer.init 2).nbasis ⟨0, 0, bs⟩).1.flatMap Blk.idxs) = [0, 1, 2, 3] := hl
    rw [e]
    rfl
  unfold Computer.applyCircuit Computer.applyGate
  rw [List.foldlM_cons, if_pos (by rfl), h1]
  rfl

/-- C96, refuted in general: the qubits of a reference circuit are not compared with those of the system: a circuit outside the register is accepted, and the first
energy reads memory outside of the state vector. -/
theorem C96_circuit_unchecked (o : DescSort) (so : SortOracle) : ∃ A, ansatzInit .uccnvqe twoQubits { reference := .circuit [gX 2], statePrep := "unitary_circ" } = .ok A ∧
    (A.ucc { reference := .circuit [gX 2], statePrep := "unitary_circ" } (.name "SD") {} [] []).energyFeval o so none [] = .error .undefinedBehaviour := by
  obtain ⟨A, hA⟩ := (C96_ansatz .uccnvqe twoQubits { reference := .circuit [gX 2], statePrep := "unitary_circ" } (by simp) twoQubits_pauli (by simp)).2
    ⟨(C96_accepts .uccnvqe twoQubits _).2 ⟨[1, 0], .circuit [gX 2] rfl rfl rfl, rfl, fun h => by simp at h⟩, by simp, by simp⟩
  refine ⟨A, hA, ?_⟩
  obtain ⟨A0, e0, e1, _⟩ := ansatz_base hA
  obtain ⟨g1, -, -, g4, -, -, -, -, -, -, -, g12, -⟩ := C96_object _ _ _ A0 e0
  have hr : A0.ref.length = 2 := g1.2.1.symm
  have hu : A.uprep = [gX 2] := by rw [e1]; exact (g12 _ rfl rfl).1
  have hq : A.computer = none := by rw [e1]; exact (g12 _ rfl rfl).2
  have hn : A.nqb = 2 := by rw [e1]; exact g4.trans hr
  obtain ⟨C, h1, -⟩ := Adapt.grown_build o so (A := A.ucc { reference := .circuit [gX 2], statePrep := "unitary_circ" } (.name "SD") {} [] [])
    (B := A.ucc { reference := .circuit [gX 2], statePrep := "unitary_circ" } (.name "SD") {} [] []) (fun e he => by simp [AlgObj.ucc] at he) rfl rfl (le_refl (1 : ℤ)) ⟨rfl, rfl, by simp [AlgObj.ucc]⟩ []
  unfold UccAlg.energyFeval UccAlg.measureEnergy
  rw [h1, except_ok_bind, Option.getD_some]
  unfold UccAlg.initialComputer
  simp only [AlgObj.ucc, hu, hq, hn, Option.getD_none]
  have := outside_register
  unfold Computer.applyCircuit at this ⊢
  rw [List.foldlM_append, this]
  rfl

/-- C96, refuted in general: neither are those of the penalty operators: this one acts on qubit 2 of a two-qubit algorithm. -/
theorem C96_penalty_unchecked (v : PyVal) (hv : v = .dict [("operators", .list [.op [(1, [gX 2])]]), ("eigenvalues", .list [.num 1]), ("scaling_factors", .list [.num 1])]) :
    ∃ A, ansatzInit .uccnvqe twoQubits { penalty := some v } = .ok A ∧ A.nqb = 2 := by
  have hw : IsPenalty v [[(1, [gX 2])]] [1] [1] := ⟨_, hv, fun p => by simp, rfl, rfl⟩
  have hX : QubitOperator.IsPauli [(1, [gX 2])] := by
    intro t ht g hg
    simp only [List.mem_cons, List.not_mem_nil, or_false] at ht
    subst ht
    simp only [List.mem_cons, List.not_mem_nil, or_false] at hg
    subst hg
    exact ⟨.make (make_X 2 0), .inl rfl⟩
  obtain ⟨A, hA⟩ := (C96_ansatz .uccnvqe twoQubits { penalty := some v } (by rintro d hd; simp only [Option.some.injEq] at hd; rw [hv] at hd; cases hd; decide) twoQubits_pauli (by
      rintro w ops eigs scales hw' ⟨d, hd, hm, _⟩ A hA
      simp only [Option.some.injEq] at hw'
      rw [← hw', hv] at hd
      cases hd
      have := (hm _).2 (.inl rfl)
      simp only [List.mem_cons, Prod.mk.injEq, PyVal.list.injEq, List.not_mem_nil, or_false, true_and] at this
      rcases this with h | ⟨h, _⟩ | ⟨h, _⟩
      · cases ops with
        | nil => simp at hA
        | cons x l =>
          simp only [List.map_cons, List.cons.injEq, PyVal.op.injEq, List.map_eq_nil_iff] at h
          obtain ⟨rfl, rfl⟩ := h
          simp only [List.mem_cons, List.not_mem_nil, or_false] at hA
          subst hA
          exact hX
      · exact absurd h (by decide)
      · exact absurd h (by decide))).2 ⟨(C96_accepts .uccnvqe twoQubits _).2 ⟨[1, 0], .hf rfl rfl rfl, rfl, fun h => by simp at h⟩, by
      rintro w hw'
      simp only [Option.some.injEq] at hw'
      subst hw'
      exact ⟨by simp, by simp, _, _, _, hw⟩, by simp⟩
  refine ⟨A, hA, ?_⟩
  obtain ⟨A0, e0, e1, _⟩ := ansatz_base hA
  obtain ⟨g1, -, -, g4, -⟩ := C96_object _ _ _ A0 e0
  rw [e1]; exact g4.trans g1.2.1.symm

/-- C96: the entries of an occupation list are not checked to be 0 or 1: any other number counts as an occupied orbital. -/
theorem C96_occupation_unchecked : ∃ A B, algorithmInit .uccnvqe twoQubits { reference := .list [7, 0] } = .ok A ∧
    algorithmInit .uccnvqe twoQubits { reference := .list [1, 0] } = .ok B ∧ A.uprep = B.uprep ∧ A.ref = [7, 0] := by
  obtain ⟨A, hA⟩ := (C96_accepts .uccnvqe twoQubits { reference := .list [7, 0] }).2 ⟨[7, 0], .occupation rfl rfl, rfl, fun h => by simp at h⟩
  obtain ⟨B, hB⟩ := (C96_accepts .uccnvqe twoQubits { reference := .list [1, 0] }).2 ⟨[1, 0], .occupation rfl rfl, rfl, fun h => by simp at h⟩
  have rA : A.ref = [7, 0] := by cases (C96_object _ _ _ A hA).1.1 <;> simp_all
  have rB : B.ref = [1, 0] := by cases (C96_object _ _ _ B hB).1.1 <;> simp_all
  obtain ⟨-, -, -, -, -, -, -, -, -, a1, a2, -⟩ := C96_object _ _ _ A hA
  obtain ⟨-, -, -, -, -, -, -, -, -, b1, b2, -⟩ := C96_object _ _ _ B hB
  refine ⟨A, B, hA, hB, ?_, rA⟩
  rw [(a2 rfl).1, (b2 rfl).1]
  obtain ⟨C, hC, eC⟩ := refprep_eq [7, 0]
  obtain ⟨D, hD, eD⟩ := refprep_eq [1, 0]
  rw [rA, hC] at a1
  rw [rB, hD] at b1
  cases a1; cases b1
  rw [eC, eD]; rfl

/-- C96: the hypotheses are met: the variational algorithm is constructed for the two-qubit system and is ready, its reference state is the determinant `|10⟩`; phase
estimation with frozen orbitals, a Hamiltonian on fewer qubits than the reference and a computer in slow mode are refused. -/
theorem C96_example : (∃ A, ansatzInit .uccnvqe twoQubits {} = .ok A ∧ A.ref = [1, 0] ∧ A.irrep = some 0 ∧ ArgsSound twoQubits {} A.nqb ∧
      (A.ucc {} (.name "SD") {} [] []).reference = Pi.single 1 1) ∧
    algorithmInit .qpe { twoQubits with frozen := some (1, 0) } {} = .error .valueError ∧
    algorithmInit .uccnvqe twoQubits { reference := .list [1, 0, 0] } = .error .valueError ∧
    algorithmInit .uccnvqe twoQubits { reference := .computer (Computer.init 2), statePrep := "computer", fast := false } = .error .valueError := by
  obtain ⟨A, hA⟩ := (C96_ansatz .uccnvqe twoQubits {} (by simp) twoQubits_pauli (by simp)).2
    ⟨(C96_accepts .uccnvqe twoQubits {}).2 ⟨[1, 0], .hf rfl rfl rfl, rfl, fun h => by simp at h⟩, by simp, by simp⟩
  have hr : A.ref = [1, 0] := by
    obtain ⟨A0, e0, e1, _⟩ := ansatz_base hA
    have : A0.ref = [1, 0] := by
      cases (C96_object _ _ _ A0 e0).1.1 with
      | hf _ _ h => exact (Option.some.inj h).symm
      | occupation _ h => cases h
      | circuit _ h _ _ => exact absurd h (by decide)
      | computer _ h _ _ _ _ _ => exact absurd h (by decide)
    rw [e1, this]
  refine ⟨⟨A, hA, hr, (C96_irrep _ _ _ A hA).1 _ rfl rfl, ⟨twoQubits_pauli, fun C h => absurd h (by decide), (fun q h => nomatch h), (fun v ops eigs scales h => nomatch h)⟩, ?_⟩, rfl, ?_, rfl⟩
  · refine (C96_state .uccnvqe twoQubits {} A hA _ _ _ _).1 rfl ?_ 1 ?_
    · rw [hr]; intro x hx; simp at hx; omega
    · rw [hr]; intro i
      rcases i with _ | i
      · rfl
      · rw [Nat.testBit_succ]; rcases i with _ | i <;> simp
  · rcases C96_refuses .uccnvqe twoQubits { reference := .list [1, 0, 0] } (by
      rintro ref ⟨h1, h2, -⟩
      rw [twoQubits_num] at h2
      cases h1 with
      | hf _ h _ => cases h
      | occupation _ h => cases h; cases h2
      | circuit _ h _ _ => exact absurd h (by decide)
      | computer _ h _ _ _ _ _ => exact absurd h (by decide)) with h | ⟨_, h⟩
    · exact h
    · cases h

end QF
