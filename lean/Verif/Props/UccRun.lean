import Verif.Model.UccRun
import Verif.Props.Algorithm
import Verif.Props.AdaptTotal
import Verif.Props.UCCPool
import Verif.Props.GSDPool
import Verif.Props.SpqeRun
import Verif.Lemmas.Sector

/-!
C97: whole runs of UCCNVQE and UCCNPQE.
-/
namespace QF

open SQOperator (DescSort jwTransform)
open QubitOperator (SortOracle)
open SQOpPool (NextPerm)
open Adapt

/-! ### the ansatz a run starts from -/

/-- the object whose pool are the excitations `keys`, each with coefficient 1 as the two terms of `E - E†`, all of them in the ansatz with amplitude zero -/
noncomputable def AlgObj.startOf (A : AlgObj) (a : AlgArgs) (keys : List (List ℕ × List ℕ)) : UccAlg :=
  { nqb := A.nqb, computer := A.computer, uprep := A.uprep, ham := A.ham, pool := keys.map fun x => (1, excTerms x.1 x.2), saSD := false,
    tops := List.range keys.length, tamps := List.replicate keys.length 0, compact := a.compact, qubitExc := a.qubitExc, trotterNumber := a.trotterNumber }

theorem poolNm_exc (o : DescSort) (P : SQOpPool) (n : ℕ) (h : ∀ e ∈ P.terms, ∃ c a, e.2 = excTerms c a ∧ Excit n c a ∧ c.length ≤ 19) :
    ∃ l, poolNm o P = .ok (l, P) := by
  have key : ∀ T : List (ℂ × SQOperator), (∀ e ∈ T, ∃ c a, e.2 = excTerms c a ∧ Excit n c a ∧ c.length ≤ 19) →
      ∃ l, T.mapM (fun t => (do
        let (Q, B) ← t.2.jwTransform o false
        pure (Q.length, (t.1, B)) : Except Exc (ℕ × ℂ × SQOperator))) = .ok l ∧ l.map Prod.snd = T := by
    intro T
    induction T with
    | nil => intro _; exact ⟨[], rfl, rfl⟩
    | cons e T ih =>
      intro h
      obtain ⟨l, h1, h2⟩ := ih fun e he => h e (by simp [he])
      obtain ⟨c, a, e1, e2, e3⟩ := h e (by simp)
      obtain ⟨Vs, hV⟩ := flows_exist false [(c, a)]
      cases hV with
      | cons hV _ =>
        obtain ⟨Q, hQ, -⟩ := gradOp_exists o e2 e3 false hV
        refine ⟨(Q.length, e) :: l, ?_, by simp [h2]⟩
        rw [List.mapM_cons, e1, hQ, h1]
        obtain ⟨z, B⟩ := e
        simp only at e1
        subst e1
        rfl
  obtain ⟨l, h1, h2⟩ := key P.terms h
  refine ⟨l.map Prod.fst, ?_⟩
  unfold poolNm
  rw [h1, except_ok_bind, h2]
  rfl

theorem start_of_fill {N : NextPerm} {o : DescSort} {fuel : ℕ} {A : AlgObj} {a : AlgArgs} {t : PoolArg} {P : SQOpPool} {keys : List (List ℕ × List ℕ)}
    (h : A.fillPool N o fuel t = .ok P) (hP : P.terms = keys.map fun x => (1, excTerms x.1 x.2)) (hk : ∀ x ∈ keys, Excit A.nqb x.1 x.2 ∧ x.1.length ≤ 19)
    (ht : t ≠ .name "sa_SD") : startAnsatz N o fuel A a t = .ok (A.startOf a keys) := by
  obtain ⟨l, e⟩ := poolNm_exc o P A.nqb (by
    intro e he
    rw [hP] at he
    obtain ⟨x, hx, rfl⟩ := List.mem_map.1 he
    exact ⟨_, _, rfl, (hk x hx).1, (hk x hx).2⟩)
  unfold startAnsatz
  rw [h, except_ok_bind, e, except_ok_bind]
  unfold AlgObj.ucc AlgObj.startOf
  cases t with
  | name n =>
    have hne : n ≠ "sa_SD" := by rintro rfl; exact ht rfl
    simp only [hP, List.length_map, hne, decide_false]
    rfl
  | pool _ =>
    simp only [hP, List.length_map]
    rfl

/-- the names of the particle-hole pools with their highest excitation rank -/
def poolRanks : List (String × ℕ) := [("SD", 2), ("SDT", 3), ("SDTQ", 4), ("SDTQP", 5), ("SDTQPH", 6)]

/-- the irreps of the spatial orbitals: those of the system if it has them, otherwise all 0 -/
def AlgObj.irreps (A : AlgObj) : List ℕ := if A.sys.orbIrreps.getD [] = [] then List.replicate (A.ref.length / 2) 0 else A.sys.orbIrreps.getD []

/-- C97: the ansatz of a particle-hole pool, for every reference determinant of an even number of at most 64 spin orbitals whose occupied ones are below 31: the excitations
from the reference to the allowed determinants that are reached upwards, in the order of these determinants. -/
theorem C97_particle_hole (N : NextPerm) (o : DescSort) (A : AlgObj) (a : AlgArgs) (k : ℕ) (hl : A.ref.length = 2 * k) (hk : k ≤ 32) (hO : Occ A.ref)
    (h31 : ∀ i, 31 ≤ i → A.ref.getD i 0 = 0) (hn : A.nqb = A.ref.length) (hi : k ≤ A.irreps.length) (R : ℕ) (hR : IsRefDet A.ref R) (name : String) (m : ℕ)
    (hm : (name, m) ∈ poolRanks) :
    ∃ keys, (∃ N₀, ∀ fuel, N₀ ≤ fuel → startAnsatz N o fuel A a (.name name) = .ok (A.startOf a keys)) ∧
      keys = ((List.range (2 ^ (2 * k))).filter fun d => decide (spinVal 0 k R ≤ spinVal 0 k d ∧ spinVal 1 k R ≤ spinVal 1 k d ∧ Allowed k R A.irreps m d)).map
        (fun d => (holes (2 * k) d R, holes (2 * k) R d)) ∧
      ∀ x ∈ keys, Excit A.nqb x.1 x.2 ∧ x.1.length ≤ m ∧ ParticleHole A.ref x.1 x.2 ∧ SymExc A.irreps x.1 x.2 := by
  have hev : Even A.ref.length := ⟨k, by omega⟩
  obtain ⟨P, hP⟩ := (SQOpPool.C50_odd_raises {} A.ref (A.sys.orbIrreps.getD [])).2 hev
  obtain ⟨p1, -, -, -, -, -, -, p8, p9⟩ := SQOpPool.C50_orbital_spaces {} P A.ref _ hO hP
  have p10 := (SQOpPool.C50_reference_integer_partial {} P A.ref _ hO hP h31).2
  have hRe : P.refInt = R := Nat.eq_of_testBit_eq fun i => by rw [p10 i, hR i]
  have hirr : P.orbIrreps = A.irreps := p9
  have hmax : SQOpPool.maxNbody name = some m := by
    simp only [poolRanks, List.mem_cons, Prod.mk.injEq, List.not_mem_nil, or_false] at hm
    rcases hm with ⟨rfl, rfl⟩ | ⟨rfl, rfl⟩ | ⟨rfl, rfl⟩ | ⟨rfl, rfl⟩ | ⟨rfl, rfl⟩ <;> rfl
  have hname : name ∈ ["sa_SD", "GSD", "SD", "SDT", "SDTQ", "SDTQP", "SDTQPH"] ∧ name ≠ "GSD" ∧ name ≠ "sa_SD" ∧ m ≤ 19 := by
    simp only [poolRanks, List.mem_cons, Prod.mk.injEq, List.not_mem_nil, or_false] at hm
    rcases hm with ⟨rfl, rfl⟩ | ⟨rfl, rfl⟩ | ⟨rfl, rfl⟩ | ⟨rfl, rfl⟩ | ⟨rfl, rfl⟩ <;> decide
  obtain ⟨N₀, h⟩ := SQOpPool.C49_contents N o P k m (by rw [p1, hl]) hk (by rw [hirr]; exact hi)
  have hkeys : ∀ x ∈ ((List.range (2 ^ (2 * k))).filter fun d => decide (spinVal 0 k R ≤ spinVal 0 k d ∧ spinVal 1 k R ≤ spinVal 1 k d ∧ Allowed k R A.irreps m d)).map
        (fun d => (holes (2 * k) d R, holes (2 * k) R d)), Excit A.nqb x.1 x.2 ∧ x.1.length ≤ m ∧ ParticleHole A.ref x.1 x.2 ∧ SymExc A.irreps x.1 x.2 := by
    intro x hx
    obtain ⟨d, hd, rfl⟩ := List.mem_map.1 hx
    obtain ⟨-, -, hs, h1, h2, h3⟩ := of_decide_eq_true (List.mem_filter.1 hd).2
    have hlen := SQOpPool.sameSpin_length hs
    have hne : holes (2 * k) d R ≠ holes (2 * k) R d := by
      intro e
      obtain ⟨p, hp⟩ := List.exists_mem_of_length_pos (by omega : 0 < (holes (2 * k) R d).length)
      have q1 := (SQOpPool.mem_holes.1 hp).2.1
      rw [← e] at hp
      have q2 := (SQOpPool.mem_holes.1 hp).2.2
      rw [q1] at q2; cases q2
    have hget : ∀ p < 2 * k, A.ref[p]? = some (A.ref.getD p 0) := fun p hp => by
      rw [List.getD_eq_getElem?_getD, List.getElem?_eq_getElem (by omega), Option.getD_some]
    refine ⟨⟨SQOpPool.holes_desc _ _ _, SQOpPool.holes_desc _ _ _, hlen.symm, hne, ?_, ?_⟩, by show (holes (2 * k) d R).length ≤ m; omega, ⟨?_, ?_, ?_⟩, ⟨hlen.symm, ?_, h3⟩⟩
    · intro p hp; rw [hn, hl]; exact (SQOpPool.mem_holes.1 hp).1
    · intro p hp; rw [hn, hl]; exact (SQOpPool.mem_holes.1 hp).1
    · intro p hp
      obtain ⟨q1, q2, -⟩ := SQOpPool.mem_holes.1 hp
      rw [hR p] at q2
      rw [hget p q1, of_decide_eq_true q2]
    · intro p hp
      obtain ⟨q1, -, q2⟩ := SQOpPool.mem_holes.1 hp
      rw [hR p] at q2
      rw [hget p q1]
      have hlt : p < A.ref.length := by omega
      have := hO (A.ref.getD p 0) (by rw [List.getD_eq_getElem _ _ hlt]; exact List.getElem_mem hlt)
      have q3 := of_decide_eq_false q2
      rcases this with h | h
      · rw [h]
      · exact absurd h q3
    · intro e
      have := congrArg List.length e
      simp only [List.length_nil] at this
      omega
    · have := SQOpPool.sameSpin_sum hs 1 0
      have hc : ∀ l : List ℕ, (l.map fun p => if p % 2 = 0 then (1 : ℂ) else 0).sum = (l.countP fun p => p % 2 == 0 : ℕ) := by
        intro l
        induction l with
        | nil => simp
        | cons p l ih =>
          rw [List.map_cons, List.sum_cons, ih, List.countP_cons]
          by_cases h : p % 2 = 0 <;> simp [h, add_comm]
      rw [hc, hc] at this
      exact_mod_cast this.symm
  refine ⟨_, ⟨N₀, fun fuel hf => ?_⟩, rfl, hkeys⟩
  refine start_of_fill (P := { P with terms := P.terms ++ ((List.range (2 ^ (2 * k))).filter fun d => decide (spinVal 0 k P.refInt ≤ spinVal 0 k d ∧ spinVal 1 k P.refInt ≤ spinVal 1 k d ∧
        Allowed k P.refInt P.orbIrreps m d)).map (fun d => (1, excTerms (holes (2 * k) d P.refInt) (holes (2 * k) P.refInt d))) }) ?_ ?_ (fun x hx => ⟨(hkeys x hx).1, le_trans (hkeys x hx).2.1 hname.2.2.2⟩) (by
    intro e; cases e; exact hname.2.2.1 rfl)
  · unfold AlgObj.fillPool
    simp only [if_pos hname.1, hP, except_ok_bind]
    unfold SQOpPool.fillPool
    rw [if_neg hname.2.1, hmax]
    exact h fuel hf
  · simp only [p8, hRe, hirr, List.map_map]
    rfl

/-- C97: the ansatz of the GSD pool: all generalised singles and doubles that conserve spin and symmetry, each once up to its sign. -/
theorem C97_gsd (N : NextPerm) (o : DescSort) (fuel : ℕ) (A : AlgObj) (a : AlgArgs) (k : ℕ) (hl : A.ref.length = 2 * k) (hO : Occ A.ref)
    (hn : A.nqb = A.ref.length) (hi : k ≤ A.irreps.length) :
    ∃ keys, startAnsatz N o fuel A a (.name "GSD") = .ok (A.startOf a keys) ∧ (∀ x ∈ keys, Excit A.nqb x.1 x.2 ∧ x.1.length ≤ 2 ∧ SymExc A.irreps x.1 x.2) ∧
      (∀ x ∈ keys, GenExc k A.irreps x) ∧ ∀ x, GenExc k A.irreps x → keys.count x + keys.count (x.2, x.1) = 1 := by
  have hev : Even A.ref.length := ⟨k, by omega⟩
  obtain ⟨P, hP⟩ := (SQOpPool.C50_odd_raises {} A.ref (A.sys.orbIrreps.getD [])).2 hev
  obtain ⟨p1, -, -, -, -, -, -, p8, p9⟩ := SQOpPool.C50_orbital_spaces {} P A.ref _ hO hP
  have hirr : P.orbIrreps = A.irreps := p9
  obtain ⟨keys, e, h1, h2⟩ := SQOpPool.C63_contents o P k (by rw [p1, hl]) (by rw [hirr]; exact hi)
  rw [hirr] at h1 h2
  have hk : ∀ x ∈ keys, Excit A.nqb x.1 x.2 ∧ x.1.length ≤ 2 ∧ SymExc A.irreps x.1 x.2 := fun x hx => by
    have g := h1 x hx
    have hlen : x.1.length = x.2.length := by rcases g.rank with h | h <;> omega
    refine ⟨⟨g.desc.1, g.desc.2, hlen, g.ne, ?_, ?_⟩, by rcases g.rank with h | h <;> omega, ⟨hlen, g.spin, g.sym⟩⟩
    · intro p hp; rw [hn, hl]; exact g.bound.1 p hp
    · intro p hp; rw [hn, hl]; exact g.bound.2 p hp
  refine ⟨keys, ?_, hk, h1, h2⟩
  refine start_of_fill (P := { P with terms := P.terms ++ keys.map fun x => (1, excTerms x.1 x.2) }) ?_ (by simp [p8]) (fun x hx => ⟨(hk x hx).1, by have := (hk x hx).2.1; omega⟩) (by simp)
  unfold AlgObj.fillPool
  simp only [if_pos (show "GSD" ∈ ["sa_SD", "GSD", "SD", "SDT", "SDTQ", "SDTQP", "SDTQPH"] by decide), hP, except_ok_bind]
  unfold SQOpPool.fillPool
  rw [if_pos rfl]
  exact e

/-- C97: any other name is refused. -/
theorem C97_invalid_pool (N : NextPerm) (o : DescSort) (fuel : ℕ) (A : AlgObj) (a : AlgArgs) (name : String)
    (h : name ∉ "sa_SD" :: "GSD" :: poolRanks.map Prod.fst) : startAnsatz N o fuel A a (.name name) = .error .valueError := by
  unfold startAnsatz AlgObj.fillPool
  simp only [if_neg (show ¬name ∈ ["sa_SD", "GSD", "SD", "SDT", "SDTQ", "SDTQP", "SDTQPH"] from h)]
  rfl

/-! ### the state and its energy -/

theorem startOf_excPool {A : AlgObj} (a : AlgArgs) {keys : List (List ℕ × List ℕ)} (hk : ∀ x ∈ keys, Excit A.nqb x.1 x.2 ∧ x.1.length ≤ 19) : ExcPool (A.startOf a keys) := by
  intro e he
  obtain ⟨x, hx, rfl⟩ := List.mem_map.1 he
  exact ⟨x.1, x.2, rfl, (hk x hx).1, (hk x hx).2, by simp⟩

theorem startOf_selects {A : AlgObj} (a : AlgArgs) {keys : List (List ℕ × List ℕ)} (hk : ∀ x ∈ keys, Excit A.nqb x.1 x.2 ∧ x.1.length ≤ 19) :
    (A.startOf a keys).Selects keys := by
  unfold UccAlg.Selects
  rw [List.forall₂_iff_get]
  refine ⟨by simp [AlgObj.startOf], fun i hi hi' => ?_⟩
  have hx := hk _ (List.getElem_mem hi')
  refine ⟨1, ?_, (show Excit A.nqb _ _ from hx.1), hx.2⟩
  simp [AlgObj.startOf, List.getElem?_map, List.getElem?_eq_getElem hi']

/-- the energy of an ansatz of excitations is that of a state of the register with the norm of the reference; if the excitations are symmetric,
no determinant of a symmetry that is not in the reference occurs in it -/
theorem exc_state (o : DescSort) (so : SortOracle) (B : UccAlg) (xs : List (List ℕ × List ℕ)) (h : B.Selects xs) (hs : B.saSD = false) (hc : B.compact = false)
    (hN : 1 ≤ B.trotterNumber) (hR : B.Ready) (ts : List ℝ) : ∃ C, B.ansatzCircuit o so (some ts) = .ok C ∧ B.buildUvqc o so (some ts) = .ok (B.uprep ++ C) ∧
      B.energyFeval o so none ts = .ok (energy B.nqb B.ham.op (C.op B.reference)) ∧ OnReg B.nqb (C.op B.reference) ∧
      inner B.nqb (C.op B.reference) (C.op B.reference) = inner B.nqb B.reference B.reference ∧
      ∀ orb : List ℕ, (∀ x ∈ xs, SymExc orb x.1 x.2) →
        ∀ I, C.op B.reference I ≠ 0 → ∃ J, B.reference J ≠ 0 ∧ symOf orb B.nqb I = symOf orb B.nqb J := by
  obtain ⟨C, Ws, h1, h2, h3, h4, h5⟩ := C70_ansatz o so B xs h hs hc hN ts
  have hbuild : B.buildUvqc o so (some ts) = .ok (B.uprep ++ C) := by
    unfold UccAlg.buildUvqc
    rw [h1, except_ok_bind]
    simp only [addCircuit_eq, List.nil_append, pure, Except.pure]
  have hfit := fits_append hR.prep.1 h5
  obtain ⟨q, e1, w, n, p⟩ := applyCircuit_exact (q := B.initialComputer) (B.uprep ++ C) hR.wf (by rw [hR.size]; exact hfit) (by
    intro g hg
    rcases List.mem_append.1 hg with hg | hg
    · exact hR.prep.2 g hg
    · exact (h4 g hg).2)
  have hn := n.trans hR.size
  obtain ⟨q', e3, _⟩ := C29_direct_op q B.ham w (by rw [hn]; exact hR.ham)
  have hψ : q.psi = C.op B.reference := by rw [p, Circuit.op_append]; rfl
  refine ⟨C, h1, hbuild, ?_, by rw [← hψ, ← hn]; exact psi_onReg w, inner_circuit h5 (fun g hg => C02_unitary (h4 g hg).1) _ _, ?_⟩
  · unfold UccAlg.energyFeval UccAlg.measureEnergy
    rw [hbuild, except_ok_bind, Option.getD_some, e1, except_ok_bind, e3, except_ok_bind]
    simp only [pure, Except.pure, energy, hn, hψ]
  · intro orb hsym I hI
    obtain ⟨Vs, hV⟩ := flows_exist B.qubitExc xs
    obtain ⟨C', g1, g2, -, -⟩ := C70_exact_used o so B xs h hs hc hN ts Vs hV
    rw [h1] at g1; cases g1
    have hK : Keeps (symOf orb B.nqb) C.op := by
      rw [g2]
      apply Keeps.pow
      unfold uccOp
      apply Keeps.inOrder
      have hx := selects_sound h
      clear g2 h1 h2 h3 h4 h5 hbuild hfit e1 p hψ hI
      clear h
      generalize (usedAmps xs ts).map (fun t => t / (B.trotterNumber : ℝ)) = ss
      induction hV generalizing ss with
      | nil => intro U hU; simp at hU
      | @cons x V xs Vs hxV _ ih =>
        cases ss with
        | nil => intro U hU; simp at hU
        | cons s ss =>
          intro U hU
          rw [List.zipWith_cons_cons] at hU
          rcases List.mem_cons.1 hU with rfl | hU
          · have hb := (hx x (by simp)).1
            exact ((keeps_symExc B.qubitExc hb.bound_c hb.bound_a (hsym x (by simp))).smul _).exp (hxV s)
          · exact ih (fun y hy => hsym y (by simp [hy])) (fun y hy => hx y (by simp [hy])) ss U hU
    exact hK B.reference I hI

theorem startOf_ready {cls : AlgClass} {S : QSystem} {a : AlgArgs} {A : AlgObj} (h : ansatzInit cls S a = .ok A) (hs : ArgsSound S a A.nqb) (keys : List (List ℕ × List ℕ))
    (ts : List ℝ) : ({ A.startOf a keys with tamps := ts } : UccAlg).Ready := by
  obtain ⟨h1, -, -⟩ := C96_ready cls S a A h hs (.name "SD") {} [] []
  exact ⟨h1.wf, h1.size, h1.prep, h1.ham⟩

/-- the optimizer returns as many amplitudes as there were, and their energy -/
def Reports (o : DescSort) (so : SortOracle) (par : Option Schedule) (X : UccRunExt) : Prop :=
  ∀ B x e, X.minimize B = .ok (x, e) → x.length = B.tamps.length ∧ B.energyFeval o so par x = .ok e

theorem vqeSolve_ok {o : DescSort} {so : SortOracle} {par : Option Schedule} {X : UccRunExt} {O : UccRunOpts} {A : AlgObj} {hf : Option (List ℝ)} {U : UccAlg} {x : List ℝ} {e : ℝ}
    (hX : Reports o so par X) (h : vqeSolve o so par X O A hf U = .ok (x, e)) : x.length = U.tamps.length ∧ U.energyFeval o so par x = .ok e := by
  unfold vqeSolve at h
  by_cases hj : pyLower O.optimizer = "jacobi"
  · rw [if_pos hj] at h
    obtain ⟨orbE, -, h⟩ := bindOk h
    obtain ⟨⟨x', e', k⟩, h1, h⟩ := bindOk h
    cases h
    exact ⟨C75_length _ _ _ _ _ h1, (C75_run _ _ _ _ _ h1).2.2.1⟩
  · rw [if_neg hj] at h
    obtain ⟨_, -, h⟩ := bindOk h
    exact hX _ _ _ h

theorem energy_tamps (o : DescSort) (so : SortOracle) (par : Option Schedule) (U : UccAlg) (y x : List ℝ) :
    ({ U with tamps := y } : UccAlg).energyFeval o so par x = U.energyFeval o so par x := rfl

/-- C97: what a run of `UCCNVQE` that returns has done.  The ansatz contains all excitations of the pool, with as many amplitudes; the reported energy is the expectation value
`⟨ψ|H|ψ⟩` of the state `ψ` that the circuit of the final amplitudes makes from the reference `Φ`, `⟨ψ|ψ⟩ = ⟨Φ|Φ⟩`; the number of CNOTs is that of the preparation
and this circuit.  If the excitations conserve the symmetries, `ψ` contains only determinants with the electron number, spin and irrep of
determinants in `Φ`. -/
theorem C97_vqe (N : NextPerm) (o : DescSort) (so : SortOracle) (fuel : ℕ) (X : UccRunExt) (hX : Reports o so none X) (O : UccRunOpts) (cls : AlgClass) (S : QSystem) (a : AlgArgs)
    (A : AlgObj) (h : ansatzInit cls S a = .ok A) (hs : ArgsSound S a A.nqb) (hc : a.compact = false) (hN : 1 ≤ a.trotterNumber) (t : PoolArg)
    (hf : Option (List ℝ)) (keys : List (List ℕ × List ℕ)) (hk : ∀ x ∈ keys, Excit A.nqb x.1 x.2 ∧ x.1.length ≤ 19)
    (hstart : startAnsatz N o fuel A a t = .ok (A.startOf a keys)) (U : UccAlg) (E : ℝ) (c : ℤ) (hrun : uccnvqeRun N o so none fuel X O A a t hf = .ok (U, E, c)) :
    U = { A.startOf a keys with tamps := U.tamps } ∧ U.tamps.length = keys.length ∧
      ∃ C, U.ansatzCircuit o so none = .ok C ∧ c = (A.uprep ++ C).getNumCnots ∧ E = energy A.nqb A.ham.op (C.op U.reference) ∧ OnReg A.nqb (C.op U.reference) ∧
        inner A.nqb (C.op U.reference) (C.op U.reference) = inner A.nqb U.reference U.reference ∧
        ∀ orb : List ℕ, (∀ x ∈ keys, SymExc orb x.1 x.2) →
          ∀ I, C.op U.reference I ≠ 0 → ∃ J, U.reference J ≠ 0 ∧ symOf orb A.nqb I = symOf orb A.nqb J := by
  unfold uccnvqeRun at hrun
  rw [hstart, except_ok_bind] at hrun
  obtain ⟨⟨x, e⟩, h1, hrun⟩ := bindOk hrun
  obtain ⟨C', h2, hrun⟩ := bindOk hrun
  cases hrun
  obtain ⟨g1, g2⟩ := vqeSolve_ok hX h1
  have hsel : ({ A.startOf a keys with tamps := x } : UccAlg).Selects keys := startOf_selects a hk
  obtain ⟨C, c1, c2, c3, c4, c5, c6⟩ := exc_state o so { A.startOf a keys with tamps := x } keys hsel rfl hc hN (startOf_ready h hs keys x) x
  rw [energy_tamps] at c3
  have hb : C' = A.uprep ++ C := Except.ok.inj (h2.symm.trans c2)
  refine ⟨rfl, by rw [g1]; simp [AlgObj.startOf], C, c1, by rw [hb], Except.ok.inj (g2.symm.trans c3), c4, c5, c6⟩


theorem startOf_reference {cls : AlgClass} {S : QSystem} {a : AlgArgs} {A : AlgObj} (h : ansatzInit cls S a = .ok A) (hp : a.statePrep = "occupation_list") (hO : Occ A.ref)
    {R : ℕ} (hR : IsRefDet A.ref R) (keys : List (List ℕ × List ℕ)) (ts : List ℝ) : ({ A.startOf a keys with tamps := ts } : UccAlg).reference = Pi.single R 1 :=
  (C96_state cls S a A h (.name "SD") {} [] []).1 hp hO R hR

theorem refDet_lt {ref : List ℕ} {R : ℕ} (hR : IsRefDet ref R) : R < 2 ^ ref.length := by
  refine Nat.lt_pow_two_of_testBit _ fun i hi => ?_
  rw [hR i, List.getD_eq_getElem?_getD, List.getElem?_eq_none hi]
  rfl

theorem inner_det_self {n R : ℕ} (h : R < 2 ^ n) : inner n (Pi.single R 1) (Pi.single R 1) = 1 := by
  unfold inner
  rw [Finset.sum_eq_single R]
  · simp
  · intro b _ hb; simp [Pi.single_eq_of_ne hb]
  · intro h'; exact absurd (Finset.mem_range.2 h) h'

/-- the states of `n` qubits with the electron number, spin and irrep of the determinant `R` -/
def InSector (orb : List ℕ) (n R : ℕ) (ψ : St) : Prop := OnReg n ψ ∧ ∀ I, ψ I ≠ 0 → symOf orb n I = symOf orb n R

/-- C97: the energy of a `UCCNVQE` run that starts from a determinant lies above every lower bound of the Hamiltonian; if the excitations conserve the symmetries,
above every lower bound on the states with the symmetry of this determinant; with an optimizer that does not go up, below the energy of the determinant. -/
theorem C97_vqe_bounds (N : NextPerm) (o : DescSort) (so : SortOracle) (fuel : ℕ) (X : UccRunExt) (hX : Reports o so none X) (O : UccRunOpts) (cls : AlgClass) (S : QSystem)
    (a : AlgArgs) (A : AlgObj) (h : ansatzInit cls S a = .ok A) (hs : ArgsSound S a A.nqb) (hc : a.compact = false) (hN : 1 ≤ a.trotterNumber) (t : PoolArg)
    (hf : Option (List ℝ)) (keys : List (List ℕ × List ℕ)) (hk : ∀ x ∈ keys, Excit A.nqb x.1 x.2 ∧ x.1.length ≤ 19)
    (hstart : startAnsatz N o fuel A a t = .ok (A.startOf a keys)) (U : UccAlg) (E : ℝ) (c : ℤ) (hrun : uccnvqeRun N o so none fuel X O A a t hf = .ok (U, E, c))
    (hp : a.statePrep = "occupation_list") (hO : Occ A.ref) (R : ℕ) (hR : IsRefDet A.ref R) :
    (∀ lam : ℝ, (∀ ψ, OnReg A.nqb ψ → lam * (inner A.nqb ψ ψ).re ≤ energy A.nqb A.ham.op ψ) → lam ≤ E) ∧
    (∀ (orb : List ℕ) (lam : ℝ), (∀ x ∈ keys, SymExc orb x.1 x.2) →
      (∀ ψ, InSector orb A.nqb R ψ → lam * (inner A.nqb ψ ψ).re ≤ energy A.nqb A.ham.op ψ) → lam ≤ E) ∧
    (pyLower O.optimizer ≠ "jacobi" → (∀ B x e e0, X.minimize B = .ok (x, e) → B.energyFeval o so none B.tamps = .ok e0 → e ≤ e0) →
      E ≤ energy A.nqb A.ham.op (Pi.single R 1)) := by
  obtain ⟨g1, g2, C, g3, -, g4, g5, g6, g7⟩ := C97_vqe N o so fuel X hX O cls S a A h hs hc hN t hf keys hk hstart U E c hrun
  have hn : A.nqb = A.ref.length := (C96_ready cls S a A h hs t {} [] []).2.1
  have href : U.reference = Pi.single R 1 := by rw [g1]; exact startOf_reference h hp hO hR keys _
  rw [href, inner_det_self (by rw [hn]; exact refDet_lt hR)] at g6
  rw [href] at g4 g5 g7
  refine ⟨fun lam hl => ?_, fun orb lam h1 hl => ?_, fun hj hdown => ?_⟩
  · have := hl _ g5
    rw [g6, ← g4] at this
    simpa using this
  · have := hl (C.op (Pi.single R 1)) ⟨g5, fun I hI => by
      obtain ⟨J, hJ, e⟩ := g7 orb h1 I hI
      obtain rfl : J = R := by
        by_contra hne
        exact hJ (Pi.single_eq_of_ne hne 1)
      exact e⟩
    rw [g6, ← g4] at this
    simpa using this
  · unfold uccnvqeRun at hrun
    rw [hstart, except_ok_bind] at hrun
    obtain ⟨⟨x, e⟩, h1, hrun⟩ := bindOk hrun
    obtain ⟨C', h2, hrun⟩ := bindOk hrun
    cases hrun
    unfold vqeSolve at h1
    rw [if_neg hj] at h1
    obtain ⟨e0, h3, h1⟩ := bindOk h1
    refine le_trans (hdown _ _ _ e0 h1 h3) (le_of_eq ?_)
    have hpool := startOf_excPool a hk
    have hneu := C85_neutral_energy o so none { A.startOf a keys with tops := [], tamps := [] } (excPool_sound hpool rfl) hc rfl (List.range keys.length) (by
      intro m hm
      have := List.mem_range.1 hm
      simpa [AlgObj.startOf] using this)
    have hz : (List.range keys.length).map (fun _ => (0 : ℝ)) = List.replicate keys.length 0 := by simp
    simp only [List.nil_append, hz] at hneu
    have hready := startOf_ready h hs keys []
    obtain ⟨ψ, k1, -, -, k4⟩ := C85_energy o so (A.startOf a keys) { A.startOf a keys with tops := [], tamps := [] } hpool rfl hc hN
      ⟨hready.wf, hready.size, hready.prep, hready.ham⟩ ⟨rfl, rfl, by simp⟩ []
    rw [k1] at hneu
    rw [k4 rfl] at hneu
    have href' : (A.startOf a keys).reference = Pi.single R 1 := startOf_reference h hp hO hR keys []
    rw [href'] at hneu
    exact Except.ok.inj (h3.symm.trans hneu)

/-- C97: a run of `UCCNVQE` with a scipy optimizer returns whenever the optimizer returns. -/
theorem C97_vqe_returns (N : NextPerm) (o : DescSort) (so : SortOracle) (fuel : ℕ) (X : UccRunExt) (O : UccRunOpts) (cls : AlgClass) (S : QSystem) (a : AlgArgs)
    (A : AlgObj) (h : ansatzInit cls S a = .ok A) (hs : ArgsSound S a A.nqb) (hc : a.compact = false) (hN : 1 ≤ a.trotterNumber) (t : PoolArg)
    (hf : Option (List ℝ)) (keys : List (List ℕ × List ℕ)) (hk : ∀ x ∈ keys, Excit A.nqb x.1 x.2 ∧ x.1.length ≤ 19)
    (hstart : startAnsatz N o fuel A a t = .ok (A.startOf a keys)) (hj : pyLower O.optimizer ≠ "jacobi") (x : List ℝ) (e : ℝ) (hm : X.minimize (A.startOf a keys) = .ok (x, e)) :
    ∃ c, uccnvqeRun N o so none fuel X O A a t hf = .ok ({ A.startOf a keys with tamps := x }, e, c) := by
  obtain ⟨C, c1, c2, -⟩ := exc_state o so { A.startOf a keys with tamps := x } keys (startOf_selects a hk) rfl hc hN (startOf_ready h hs keys x) x
  obtain ⟨C0, -, -, d3, -⟩ := exc_state o so (A.startOf a keys) keys (startOf_selects a hk) rfl hc hN (startOf_ready h hs keys _) (A.startOf a keys).tamps
  refine ⟨(A.uprep ++ C).getNumCnots, ?_⟩
  have hb : ({ A.startOf a keys with tamps := x } : UccAlg).buildUvqc o so none = .ok (A.uprep ++ C) := c2
  unfold uccnvqeRun vqeSolve
  rw [hstart, except_ok_bind, if_neg hj, d3, except_ok_bind, hm, except_ok_bind]
  simp only [hb, except_ok_bind]
  rfl

end QF
