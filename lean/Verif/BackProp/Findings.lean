import Verif.BackProp.Example

/-!
# Where back-propagated estimates go wrong (C111)
-/

namespace Verif.BackProp

open Matrix Finset Verif.Step
open Verif.Weights (hybridEnergy Uncapped updateHybrid updateLocal cfb cmf xshifted)

variable {nx nb nu nd : Nat}

/-! ## Free projection -/

/-- Nothing is recorded in free projection, so the estimator never adds anything. -/
theorem free_never (R : Setup nx nb nu nd) (e : ℂ) (l : List (Fin nx → ℝ)) (v : BW nx nb nu nd) (hv : v.hist = [])
    {nmax nsplit : Nat} (hs : nmax / nsplit ≠ 0) (r : Restore) (E : (Fin 2 → Matrix (Fin nb) (Fin nb) ℂ) → ℂ)
    (old : Slater.Wfn nb nu nd) (ws : List (Slater.Wfn nb nu nd × BW nx nb nu nd)) (acc : Option ℂ) :
    update R nmax nsplit r E ((old, l.foldl (fun v xi => freeStep R e xi v) v) :: ws) acc = acc := by
  have h : ∀ (l : List (Fin nx → ℝ)) (v : BW nx nb nu nd), (l.foldl (fun v xi => freeStep R e xi v) v).hist = v.hist := by
    intro l
    induction l with
    | nil => exact fun _ => rfl
    | cons x l ih => exact fun v => ih _
  have hm : (0 : Nat) ∉ FieldHistory.splits nmax nsplit := by
    simp only [FieldHistory.splits, List.mem_map, not_exists, not_and]
    intro i _ hi
    rcases Nat.mul_eq_zero.1 hi with h | h
    · omega
    · exact hs h
  simp only [update]
  rw [h, hv, List.length_nil, if_neg hm]

/-! ## Walkers killed by the constraint -/

/-- One walker with a recorded cosine of zero makes the sum over all walkers nan. -/
theorem total_none (R : Setup nx nb nu nd) (E : (Fin 2 → Matrix (Fin nb) (Fin nb) ℂ) → ℂ)
    (ws : List (Slater.Wfn nb nu nd × BW nx nb nu nd)) (a : Slater.Wfn nb nu nd × BW nx nb nu nd) (ha : a ∈ ws)
    (e : (Fin nx → ℂ) × ℂ × ℂ) (he : e ∈ a.2.hist) (hz : e.2.2 = 0) : total R .full E ws = none := by
  induction ws with
  | nil => simp at ha
  | cons b ws ih =>
    rw [total]
    rcases List.mem_cons.1 ha with rfl | ha
    · have : bpWeight .full a.2 = none := by
        rw [bpWeight]
        have : (a.2.hist.map fun e => e.2.2).prod = 0 := List.prod_eq_zero (List.mem_map.2 ⟨e, he, hz⟩)
        simp only [this, if_true]
      rw [this]
    · rw [ih ha]
      cases bpWeight .full b.2 <;> rfl

/-- The run of `Example.lean` with an imaginary factor. -/
noncomputable def killT : Tables 1 1 := ⟨fun _ => 0, 0, fun _ => 1, fun x _ => Complex.I • ∑ a, x a • 1⟩

noncomputable def killR : Setup 1 1 1 1 :=
  ⟨6, 1, killT, fun _ _ => 0, fun _ => 0, Matrix.of fun _ _ => 1, 0, Slater.someQR 1, 5⟩

/-- The matrix of a step with the field 6/5. -/
noncomputable def killZ : ℂ := ⟨3622528 / 10000000, 932736 / 1000000⟩

theorem kill_mat (c : Fin 2) : mat killR (fields killR (fun _ => 6 / 5) exV.s) c = Matrix.of fun _ _ => killZ := by
  have hf : fields killR (fun _ => 6 / 5) exV.s = fun _ => (6 / 5 : ℂ) := by
    funext a
    have : fields killR (fun _ => 6 / 5) exV.s = xshifted (fun _ => 6 / 5) fun _ => Weights.rescale 0 := rfl
    rw [this, xshifted, show Weights.rescale 0 = 0 by simp [Weights.rescale]]
    push_cast
    ring
  rw [hf]
  ext i j
  have h1 : i = 0 := Subsingleton.elim _ _
  have h2 : j = 0 := Subsingleton.elim _ _
  subst h1 h2
  have : mat killR (fun _ => (6 / 5 : ℂ)) c = Slater.taylor 6 ((Complex.I * (6 / 5)) • (1 : Matrix (Fin 1) (Fin 1) ℂ)) := by
    show (1 : Matrix (Fin 1) (Fin 1) ℂ) * (Slater.taylor 6 _ * (1 : Matrix (Fin 1) (Fin 1) ℂ)) = _
    rw [mul_one, one_mul]
    congr 1
    show Complex.I • ∑ a : Fin 1, (6 / 5 : ℂ) • (1 : Matrix (Fin 1) (Fin 1) ℂ) = _
    rw [Fin.sum_univ_one, smul_smul]
  rw [this, Matrix.of_apply]
  simp only [Slater.taylor, smul_pow, one_pow, sum_range_succ, range_zero, sum_empty]
  simp only [Matrix.add_apply, Matrix.smul_apply, Matrix.one_apply_eq, Matrix.zero_apply, smul_eq_mul, mul_one, mul_pow,
    Complex.I_pow_three, Complex.I_pow_four, Complex.I_sq, show Complex.I ^ 5 = Complex.I by rw [pow_succ, Complex.I_pow_four, one_mul],
    show Complex.I ^ 6 = -1 by rw [show 6 = 4 + 2 from rfl, pow_add, Complex.I_pow_four, one_mul, Complex.I_sq], Nat.factorial]
  have hz : killZ = ((3622528 / 10000000 : ℝ) : ℂ) + ((932736 / 1000000 : ℝ) : ℂ) * Complex.I := by
    rw [killZ, Complex.mk_eq_add_mul_I]
  rw [hz]
  push_cast
  ring

/-- A step after which the constraint has set the weight of the walker to zero. -/
theorem kill_cos (o : Bool) : ∃ e ∈ (step killR o (fun _ => 6 / 5) exV).hist, e.2.2 = 0 := by
  set p := (phaseless 6 1 killT killR.fb killR.eloc killR.psi (fun _ => 6 / 5) exV.s).1 with hp
  have hm : mulBoth (mat killR (fields killR (fun _ => 6 / 5) exV.s)) exV.s.phi =
      mulBoth (fun _ => Matrix.of fun _ _ => killZ) exV.s.phi := by
    congr 1
    funext c
    rw [kill_mat]
  have hs : ovl2 killR.psi exV.s.phi = 1 := ex_start 1
  have hl : Complex.exp (-((0 : ℝ) : ℂ)) = 1 := by simp
  have e1 : p.ovlpNew = killZ ^ 2 := by
    have : p.ovlpNew = ovl2 killR.psi (phaseless 6 1 killT killR.fb killR.eloc killR.psi (fun _ => 6 / 5) exV.s).2.phi *
        Complex.exp (-((0 : ℝ) : ℂ)) := Slater.calcOverlap_eq _ _
    rw [this, hl, mul_one]
    have := orbitals' killR rfl (fun _ => 6 / 5) exV.s
    rw [show (phaseless 6 1 killT killR.fb killR.eloc killR.psi (fun _ => 6 / 5) exV.s).2.phi = _ from this, hm, ex_ovl, hs, mul_one]
  have e2 : p.ovlp = 1 := by
    have : p.ovlp = ovl2 killR.psi exV.s.phi * Complex.exp (-((0 : ℝ) : ℂ)) := Slater.greensFunction_det _ _
    rw [this, hl, mul_one, hs]
  have e3 : p.cfb = 0 := by
    show cfb (fun _ => 6 / 5) (fun _ => Weights.rescale 0) = 0
    simp [cfb, Weights.rescale]
  have e4 : p.cmf = 0 := by
    show cmf 1 (fun _ => 0) (fun _ => 6 / 5) (fun _ => Weights.rescale 0) = 0
    simp [cmf]
  have hh : hybridEnergy 1 0 p = -Complex.log (killZ ^ 2) := by
    rw [hybridEnergy, Weights.boundHybrid, if_pos (by norm_num), e1, e2, e3, e4]
    simp
  have hz : killZ ^ 2 ≠ 0 := pow_ne_zero _ fun h => by
    have := congrArg Complex.re h
    rw [killZ] at this
    norm_num at this
  have hre : (killZ ^ 2).re < 0 := by
    rw [sq, Complex.mul_re, killZ]
    norm_num
  have hcos : max 0 (Real.cos (-((1 : ℝ) : ℂ) * hybridEnergy 1 0 p - p.cfb).im) = 0 := by
    have : (-((1 : ℝ) : ℂ) * hybridEnergy 1 0 p - p.cfb).im = Complex.arg (killZ ^ 2) := by
      rw [hh, e3, sub_zero, Complex.ofReal_one, neg_one_mul, neg_neg, Complex.log_im]
    rw [this, Complex.cos_arg hz]
    exact max_eq_left (div_nonpos_of_nonpos_of_nonneg hre.le (norm_nonneg _))
  refine ⟨_, List.mem_append_right _ (List.mem_singleton_self _), ?_⟩
  show (((updateHybrid 1 0 p exV.w).2.2.re : ℝ) : ℂ) = 0
  simp only [updateHybrid]
  rw [hcos]
  split_ifs <;> simp

/-- **Finding**: after a step in which the constraint sets the weight of a walker to zero, the estimates with fully restored weights
of the whole population are nan. -/
theorem kill_nan (o : Bool) (E : (Fin 2 → Matrix (Fin 1) (Fin 1) ℂ) → ℂ) (ws : List (Slater.Wfn 1 1 1 × BW 1 1 1 1)) :
    total killR .full E ((exV.s.phi, step killR o (fun _ => 6 / 5) exV) :: ws) = none := by
  obtain ⟨e, he, hz⟩ := kill_cos o
  exact total_none killR E _ _ (List.mem_cons_self ..) e he hz

/-! ## Local-energy weights -/

/-- What a step with the local-energy weight records is a positive real number or zero: no phase. -/
theorem local_records (dt eshift : ℝ) (s : Weights.Step) (w : Weights.Wk) :
    ∃ r : ℝ, 0 ≤ r ∧ (updateLocal dt eshift s w).2.1 = r := by
  simp only [updateLocal]
  split_ifs
  · exact ⟨_, (Real.exp_pos _).le, rfl⟩
  · exact ⟨0, le_rfl, by simp⟩

/-- **Finding**: with the local-energy weight the restored weights are nonnegative real numbers, whatever the phases of the overlaps
were: nothing that the constraint removed is restored but a real factor. -/
theorem local_no_phase (R : Setup nx nb nu nd) (l : List (Fin nx → ℝ)) (v : BW nx nb nu nd) (hv : v.hist = [])
    (hw : 0 ≤ v.w.weight) :
    ∃ r : ℝ, 0 ≤ r ∧ bpWeight .part (l.foldl (fun v xi => stepLocal R xi v) v) = some (r : ℂ) := by
  have key : ∀ (l : List (Fin nx → ℝ)) (v : BW nx nb nu nd), 0 ≤ v.w.weight → (∀ e ∈ v.hist, ∃ r : ℝ, 0 ≤ r ∧ e.2.1 = r) →
      0 ≤ (l.foldl (fun v xi => stepLocal R xi v) v).w.weight ∧
        ∀ e ∈ (l.foldl (fun v xi => stepLocal R xi v) v).hist, ∃ r : ℝ, 0 ≤ r ∧ e.2.1 = r := by
    intro l
    induction l with
    | nil => exact fun v h1 h2 => ⟨h1, h2⟩
    | cons x l ih =>
      intro v h1 h2
      refine ih _ ?_ ?_
      · exact mul_nonneg h1 (mul_nonneg (Real.exp_pos _).le (le_max_left _ _))
      · intro e he
        rcases List.mem_append.1 he with he | he
        · exact h2 e he
        · rw [List.mem_singleton.1 he]
          exact local_records _ _ _ _
  obtain ⟨h1, h2⟩ := key l v hw (by simp [hv])
  generalize l.foldl (fun v xi => stepLocal R xi v) v = u at h1 h2
  have hp : ∀ L : List ((Fin nx → ℂ) × ℂ × ℂ), (∀ e ∈ L, ∃ r : ℝ, 0 ≤ r ∧ e.2.1 = r) →
      ∃ r : ℝ, 0 ≤ r ∧ (L.map fun e => e.2.1).prod = r := by
    intro L
    induction L with
    | nil => exact fun _ => ⟨1, zero_le_one, by simp⟩
    | cons e L ih =>
      intro h
      obtain ⟨r, h3, h4⟩ := ih fun e he => h e (List.mem_cons_of_mem _ he)
      obtain ⟨q, h5, h6⟩ := h e (List.mem_cons_self ..)
      exact ⟨q * r, mul_nonneg h5 h3, by rw [List.map_cons, List.prod_cons, h4, h6, Complex.ofReal_mul]⟩
  obtain ⟨r, h3, h4⟩ := hp _ h2
  exact ⟨u.w.weight * r, mul_nonneg h1 h3, by rw [bpWeight, h4, Complex.ofReal_mul]⟩

/-- The recorded factor is a phase only if the sum of the local energies is real. -/
theorem local_modulus (dt eshift : ℝ) (hdt : 0 < dt) (s : Weights.Step) (w : Weights.Wk) :
    ‖(updateLocal dt eshift s w).2.1‖ = 1 → (s.eloc + w.eloc).im = 0 := by
  simp only [updateLocal]
  split_ifs
  · rw [Complex.norm_real, Real.norm_of_nonneg (Real.exp_pos _).le, Real.exp_eq_one_iff]
    intro h
    rcases mul_eq_zero.1 h with h | h
    · exact absurd h (by nlinarith)
    · simpa using h
  · simp

/-! ## Hubbard model with continuous fields -/

/-- **Finding**: fields between −1 and 1 all give the same matrix in the back propagation. -/
theorem hubbard_same (dt U : ℝ) (BT2 : Fin 2 → Matrix (Fin nb) (Fin nb) ℂ) (x y : Fin nb → ℂ) (hx : ∀ i, |(x i).re| < 1)
    (hy : ∀ i, |(y i).re| < 1) (c : Fin 2) : hubbardMatrix dt U BT2 x c = hubbardMatrix dt U BT2 y c := by
  have h : ∀ (γ : ℝ) (z : ℂ), |z.re| < 1 → auxEntry γ z c = some (Real.exp (if c = 0 then γ else -γ)) := by
    intro γ z hz
    obtain ⟨h1, h2⟩ := abs_lt.1 hz
    have hi : (if 0 ≤ z.re then ⌊z.re⌋ else ⌈z.re⌉) = 0 := by
      split_ifs with h
      · exact Int.floor_eq_zero_iff.2 ⟨h, h2⟩
      · exact Int.ceil_eq_zero_iff.2 ⟨by linarith, by linarith⟩
    simp only [auxEntry, hi, true_or, if_true]
  have : ∀ γ, auxAll γ x c = auxAll γ y c := by
    intro γ
    simp only [auxAll, h γ _ (hx _), h γ _ (hy _)]
  simp only [hubbardMatrix, this]

/-- **Finding**: a field whose real part is two or more, or minus three or less, stops the run. -/
theorem hubbard_raises (dt U : ℝ) (BT2 : Fin 2 → Matrix (Fin nb) (Fin nb) ℂ) (x : Fin nb → ℂ) (i : Fin nb)
    (h : 2 ≤ (x i).re ∨ (x i).re ≤ -3) (c : Fin 2) : hubbardMatrix dt U BT2 x c = none := by
  have h1 : ∀ γ, auxEntry γ (x i) c = none := by
    intro γ
    have hi : 2 ≤ (if 0 ≤ (x i).re then ⌊(x i).re⌋ else ⌈(x i).re⌉) ∨ (if 0 ≤ (x i).re then ⌊(x i).re⌋ else ⌈(x i).re⌉) ≤ -3 := by
      rcases h with h | h
      · left
        rw [if_pos (by linarith)]
        exact Int.le_floor.2 (by exact_mod_cast h)
      · right
        rw [if_neg (by linarith)]
        exact Int.ceil_le.2 (by exact_mod_cast h)
    simp only [auxEntry]
    generalize (if 0 ≤ (x i).re then ⌊(x i).re⌋ else ⌈(x i).re⌉) = j at hi
    rw [if_neg (by omega), if_neg (by omega)]
  have : ∀ γ, auxAll γ x c = none := by
    intro γ
    rw [auxAll, if_neg]
    intro hall
    have := hall i
    rw [h1] at this
    exact absurd this (by simp)
  rw [hubbardMatrix, this, Option.map_none]

/-- The fields of the discrete decomposition, 0 and 1, give the two factors. -/
theorem hubbard_discrete (dt U : ℝ) (BT2 : Fin 2 → Matrix (Fin nb) (Fin nb) ℂ) (x : Fin nb → Fin 2) (c : Fin 2) :
    hubbardMatrix dt U BT2 (fun i => ((x i : Nat) : ℂ)) c =
      some (BT2 c * (diagonal (fun i => ((Real.exp (if x i = c then Real.arcosh (Real.exp (1 / 2 * dt * U))
        else -Real.arcosh (Real.exp (1 / 2 * dt * U))) : ℝ) : ℂ)) * BT2 c)) := by
  have h : ∀ (γ : ℝ) i, auxEntry γ ((x i : Nat) : ℂ) c = some (Real.exp (if x i = c then γ else -γ)) := by
    intro γ i
    have hi : (if 0 ≤ (((x i : Nat) : ℂ)).re then ⌊(((x i : Nat) : ℂ)).re⌋ else ⌈(((x i : Nat) : ℂ)).re⌉) = ((x i : Nat) : Int) := by
      rw [Complex.natCast_re, if_pos (Nat.cast_nonneg _), Int.floor_natCast]
    simp only [auxEntry, hi]
    generalize x i = z
    fin_cases z <;> fin_cases c <;> simp
  simp only [hubbardMatrix, auxAll, h, Option.isSome_some, implies_true, if_true, Option.getD_some, Option.map_some]

/-- In a step of a repulsive Hubbard model with continuous fields the matrix depends on the field, for small fields too. -/
theorem hubbard_differ (R : Setup (nb + 1) (nb + 1) nu nd) (h : Hub (nb + 1)) (mf : Fin (nb + 1) → ℂ) (hU : 0 < h.U) (hdt : 0 < R.dt)
    (ht : R.t = h.charge R.dt mf) (c : Fin 2) :
    ∃ x y : Fin (nb + 1) → ℂ, (∀ i, |(x i).re| < 1) ∧ (∀ i, |(y i).re| < 1) ∧ mat R x c ≠ mat R y c := by
  refine ⟨fun _ => 0, fun _ => ((1 / 2 : ℝ) : ℂ), fun _ => by simp, fun _ => by rw [Complex.ofReal_re]; norm_num [abs_lt], fun he => ?_⟩
  have hB : IsUnit (R.t.BH1 c) := by
    rw [ht]
    exact Matrix.isUnit_exp _
  rw [mat, mat, hB.mul_right_inj, hB.mul_left_inj, ht] at he
  set w : ℂ := (Real.sqrt R.dt : ℂ) * (Complex.I * root h.U) * ((1 / 2 : ℝ) : ℂ) with hw
  have hw2 : w ^ 2 = ((-(R.dt * h.U / 4) : ℝ) : ℂ) := by
    have h1 : (Real.sqrt R.dt : ℂ) * (Real.sqrt R.dt : ℂ) = R.dt := by
      rw [← Complex.ofReal_mul, Real.mul_self_sqrt hdt.le]
    have h2 := root_sq h.U
    rw [hw]
    push_cast
    linear_combination (Complex.I ^ 2 * root h.U ^ 2 / 4) * h1 + (R.dt * Complex.I ^ 2 / 4) * h2 + R.dt * h.U / 4 * Complex.I_sq
  have he0 := congrFun (congrFun he 0) 0
  have ev : ∀ z : ℂ, Slater.taylor 6 (diagonal fun _ : Fin (nb + 1) => z) 0 0 =
      1 + z + z ^ 2 / 2 + z ^ 3 / 6 + z ^ 4 / 24 + z ^ 5 / 120 + z ^ 6 / 720 := by
    intro z
    simp only [Slater.taylor, Matrix.diagonal_pow, sum_range_succ, range_zero, sum_empty, Nat.factorial]
    simp only [Matrix.add_apply, Matrix.smul_apply, Matrix.diagonal_apply_eq, Matrix.zero_apply, smul_eq_mul, Pi.pow_apply]
    push_cast
    ring
  have e1 : (h.charge R.dt mf).vhs (fun _ => 0) c = diagonal fun _ => (0 : ℂ) := by simp [Hub.charge]
  have e2 : (h.charge R.dt mf).vhs (fun _ => ((1 / 2 : ℝ) : ℂ)) c = diagonal fun _ => w := rfl
  rw [e1, e2, ev, ev] at he0
  set q : ℝ := R.dt * h.U / 4 with hq
  have hq0 : 0 < q := by positivity
  set B : ℝ := 1 - q / 6 + q ^ 2 / 120 with hBd
  set A : ℝ := q / 2 - q ^ 2 / 24 + q ^ 3 / 720 with hA
  have hBp : 0 < B := by rw [hBd]; nlinarith [sq_nonneg (q - 10)]
  have hwB : w * B = A := by
    rw [hBd, hA]
    push_cast at hw2 ⊢
    linear_combination -he0 + (-1 / 2 - w / 6 - w ^ 2 / 24 - w ^ 3 / 120 - w ^ 4 / 720 + q / 24 + w * q / 120 + w ^ 2 * q / 720 - q ^ 2 / 720) * hw2
  have hsq : -(q * B ^ 2) = A ^ 2 := by
    have : ((-(q * B ^ 2) : ℝ) : ℂ) = ((A ^ 2 : ℝ) : ℂ) := by
      push_cast at hw2 ⊢
      rw [← hwB]
      linear_combination -(B : ℂ) ^ 2 * hw2
    exact_mod_cast this
  nlinarith [sq_nonneg A, mul_pos hq0 (pow_pos hBp 2)]

end Verif.BackProp
