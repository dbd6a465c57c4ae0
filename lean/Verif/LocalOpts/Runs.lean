import Verif.LocalOpts.Props

/-!
# C115: which combinations of options give energies in a run
-/

namespace Verif.LocalOpts

open Matrix Finset Energy

variable {M na nb : Nat}

/-- Shorthand for a singular value decomposition routine. -/
abbrev SVD (M : Nat) := Matrix (Fin M) (Fin M) ℂ →
  Matrix (Fin M) (Fin M) ℂ × (Fin M → ℝ) × Matrix (Fin M) (Fin M) ℂ

/-- Set-up of a trial with one determinant always succeeds; what it leaves. -/
theorem setupTrial_one (svd : SVD M) (o : Opts) (na nb nchol size : Nat) (hs : 0 < size)
    (order : List (Nat × Nat)) (hall : ∀ r < size, (r, 0) ∈ order) (chol : Nat → Nat → Nat → ℂ)
    (psi : Nat → Nat → Nat → ℂ) :
    ∃ t : Trial M na nb, setupTrial svd o na nb nchol 1 size order chol psi = some t ∧
      t.rchol = storedChol M na nb nchol size order chol psi ∧
      (o.exact = true → o.pno = false →
        ∃ e, t.eri = some e ∧ ∀ n, e 0 n = eriRow M na nb nchol chol (psi 0) n) ∧
      (t.uvt = if o.exact && o.pno then some (makeUVT svd na nb nchol o.thresh chol (psi 0))
        else none) ∧
      (o.control = true → ∃ e, t.e0 = some e ∧
        twoBody (green (orbA M na psi) (orbB M na nb psi) (orbA M na psi) (orbB M na nb psi)).2
          t.rchol = some e) := by
  obtain ⟨e0, he0, -⟩ := twoBody_stored (fun _ => 0) (fun _ => 0) 0
    (green (orbA M na psi) (orbB M na nb psi) (orbA M na psi) (orbB M na nb psi)).2 nchol size hs
    order hall chol psi
  have hc : (if o.control then
      (twoBody (green (orbA M na psi) (orbB M na nb psi) (orbA M na psi) (orbB M na nb psi)).2
          (storedChol M na nb nchol size order chol psi)).map some
    else some none) = some (if o.control then some e0 else none) := by
    cases o.control <;> simp [he0]
  have hr : (⟨1 * (M * (na + nb)), nchol,
      Setup.halfRotateAll M na nb nchol size chol psi order (fun _ _ => 0)⟩ : Arr2) =
      storedChol M na nb nchol size order chol psi := rfl
  unfold setupTrial
  simp only [hr, if_true, hc, Nat.sub_self]
  cases hx : o.exact with
  | false =>
    refine ⟨_, rfl, rfl, by simp, by simp, ?_⟩
    intro h
    exact ⟨e0, by simp [h], he0⟩
  | true =>
    cases hp : o.pno with
    | false =>
      refine ⟨_, rfl, rfl, ?_, by simp, ?_⟩
      · intro _ _
        exact ⟨_, rfl, fun n => by simp⟩
      · intro h
        exact ⟨e0, by simp [h], he0⟩
    | true =>
      refine ⟨_, rfl, rfl, by simp, by simp, ?_⟩
      intro h
      exact ⟨e0, by simp [h], he0⟩

/-- The energy routines without sampling and truncation give the full energy of the Green's
functions. -/
theorem localEnergy_full (o : Opts) (hst : o.stochastic = false) (hp : o.pno = false)
    (h1 : Fin 2 → Matrix (Fin M) (Fin M) ℂ) (ecore : ℂ) (θ : Nat → Nat → Bool) (nchol size : Nat)
    (hs : 0 < size) (order : List (Nat × Nat)) (hall : ∀ r < size, (r, 0) ∈ order)
    (chol : Nat → Nat → Nat → ℂ) (psi : Nat → Nat → Nat → ℂ) (φ : Matrix (Fin M) (Fin na) ℂ)
    (χ : Matrix (Fin M) (Fin nb) ℂ) (rchol : Option Arr2) (eri : Option (Nat → Nat → ℂ))
    (c0 : Option (Ref M na nb)) (uvt : Option (UVT M))
    (hr : o.exact = false → rchol = some (storedChol M na nb nchol size order chol psi))
    (he : o.exact = true → ∃ e, eri = some e ∧ ∀ n, e 0 n = eriRow M na nb nchol chol (psi 0) n) :
    localEnergy o h1 (green (orbA M na psi) (orbB M na nb psi) φ χ).1 ecore
        (green (orbA M na psi) (orbB M na nb psi) φ χ).2 θ rchol eri c0 uvt =
      some (localChol h1 (cholMat M nchol chol) (green (orbA M na psi) (orbB M na nb psi) φ χ).1
        ecore) := by
  have key := localCholOpt_eq h1 (cholMat M nchol chol)
    (green (orbA M na psi) (orbB M na nb psi) φ χ).1 ecore (orbA M na psi) (orbB M na nb psi)
    (green (orbA M na psi) (orbB M na nb psi) φ χ).2.a
    (green (orbA M na psi) (orbB M na nb psi) φ χ).2.b rfl rfl
  unfold localEnergy
  simp only [hst, hp, Bool.false_and, Bool.false_eq_true, if_false, Bool.not_false, Bool.and_true]
  cases hx : o.exact with
  | false =>
    rw [hr hx, cholOpt_stored h1 _ ecore _ nchol size hs order hall chol psi, key]
    simp
  | true =>
    obtain ⟨e, rfl, hrow⟩ := he hx
    rw [optEri_eq h1 _ ecore _ nchol chol psi e hrow, localOpt_eq, key]
    simp

/-- **C115**: with the plain routine, or with stored four-index integrals (with or without control
variates), every energy of a run is the full local energy of the walker, for any number of ranks. -/
theorem runEnergy_full (svd : SVD M) (o : Opts) (hst : o.stochastic = false) (hp : o.pno = false)
    (hx : o.exact = true ∨ o.control = false) (free : Bool)
    (h1 : Fin 2 → Matrix (Fin M) (Fin M) ℂ) (ecore : ℂ) (nchol size : Nat) (hs : 0 < size)
    (order : List (Nat × Nat)) (hall : ∀ r < size, (r, 0) ∈ order) (chol : Nat → Nat → Nat → ℂ)
    (psi : Nat → Nat → Nat → ℂ) (θ : Fin 3 → Nat → Nat → Bool)
    (φ φ' : Matrix (Fin M) (Fin na) ℂ) (χ χ' : Matrix (Fin M) (Fin nb) ℂ) :
    runEnergy svd o free h1 ecore nchol size order chol psi θ φ φ' χ χ' =
      some (localChol h1 (cholMat M nchol chol)
        ![(Slater.gabMod (orbA M na psi) φ').1, (Slater.gabMod (orbB M na nb psi) χ').1] ecore) := by
  obtain ⟨t, ht, hr, he, -, he0⟩ := setupTrial_one svd o na nb nchol size hs order hall chol psi
  have he' : o.exact = true → ∃ e, t.eri = some e ∧ ∀ n, e 0 n = eriRow M na nb nchol chol (psi 0) n :=
    fun h => he h hp
  have full := fun φ χ θ c0 uvt => localEnergy_full o hst hp h1 ecore θ nchol size hs order hall chol
    psi φ χ (some t.rchol) t.eri c0 uvt (fun _ => by rw [hr]) he'
  simp only [runEnergy, ht, Option.bind_some, trialEnergy, full]
  obtain ⟨e1, he1, -⟩ := twoBody_stored h1 (fun _ => 0) ecore
    (green (orbA M na psi) (orbB M na nb psi) φ χ).2 nchol size hs order hall chol psi
  cases hc : o.control with
  | false =>
    simp only [newWalker, hc, Bool.false_eq_true, if_false, Option.bind_some, full, Option.map_some,
      walkerEnergy]
    rfl
  | true =>
    have hx : o.exact = true := by simpa [hc] using hx
    simp only [newWalker, hc, if_true, hr, he1, Option.bind_some, Option.map_some, walkerEnergy]
    rw [← hr]
    simp only [full, Option.map_some, Option.bind_some]
    rw [localEnergy_full o hst hp h1 ecore _ nchol size hs order hall chol psi φ' χ' none t.eri _ _
      (fun h => by rw [hx] at h; cases h) he']
    rfl

/-- **C115**: a run with the stochastic routine fails. -/
theorem runEnergy_stochastic (svd : SVD M) (o : Opts) (hst : o.stochastic = true) (h : 2 ≤ na * M)
    (free : Bool) (h1 : Fin 2 → Matrix (Fin M) (Fin M) ℂ) (ecore : ℂ) (nchol size : Nat)
    (order : List (Nat × Nat)) (chol : Nat → Nat → Nat → ℂ)
    (psi : Nat → Nat → Nat → ℂ) (θ : Fin 3 → Nat → Nat → Bool)
    (φ φ' : Matrix (Fin M) (Fin na) ℂ) (χ χ' : Matrix (Fin M) (Fin nb) ℂ) :
    runEnergy svd o free h1 ecore nchol size order chol psi θ φ φ' χ χ' = none := by
  unfold runEnergy
  cases setupTrial svd o na nb nchol 1 size order chol psi with
  | none => rfl
  | some t =>
    have : trialEnergy o h1 ecore (θ 0) (orbA M na psi) (orbB M na nb psi) t = none := by
      unfold trialEnergy localEnergy
      simp only [stoch_fails _ _ _ _ _ _ _ _ h]
      cases hc : o.control <;> simp [hst]
    simp only [Option.bind_some, this, Option.bind_none]

/-- **C115**: control variates without stored integrals fail at the first estimate, though the trial
energy is computed. -/
theorem runEnergy_control (svd : SVD M) (o : Opts) (hst : o.stochastic = false) (hp : o.pno = false)
    (hx : o.exact = false) (hc : o.control = true) (free : Bool)
    (h1 : Fin 2 → Matrix (Fin M) (Fin M) ℂ) (ecore : ℂ) (nchol size : Nat)
    (order : List (Nat × Nat)) (chol : Nat → Nat → Nat → ℂ)
    (psi : Nat → Nat → Nat → ℂ) (θ : Fin 3 → Nat → Nat → Bool)
    (φ φ' : Matrix (Fin M) (Fin na) ℂ) (χ χ' : Matrix (Fin M) (Fin nb) ℂ) :
    runEnergy svd o free h1 ecore nchol size order chol psi θ φ φ' χ χ' = none := by
  have : ∀ (G : Fin 2 → Matrix (Fin M) (Fin M) ℂ) (g : Half M na nb) ref rchol eri uvt,
      walkerEnergy o h1 G ecore g (θ 2) ref rchol eri uvt = none := by
    intro G g ref rchol eri uvt
    simp [walkerEnergy, hc, localEnergy, hst, hp, hx, cholOpt]
  simp only [runEnergy, this]
  simp

/-- **C115**: pair natural orbitals without stored integrals or without control variates fail. -/
theorem runEnergy_pno_needs (svd : SVD M) (o : Opts) (hst : o.stochastic = false) (hp : o.pno = true)
    (hx : o.exact = false ∨ o.control = false) (free : Bool)
    (h1 : Fin 2 → Matrix (Fin M) (Fin M) ℂ) (ecore : ℂ) (nchol size : Nat)
    (order : List (Nat × Nat)) (chol : Nat → Nat → Nat → ℂ)
    (psi : Nat → Nat → Nat → ℂ) (θ : Fin 3 → Nat → Nat → Bool)
    (φ φ' : Matrix (Fin M) (Fin na) ℂ) (χ χ' : Matrix (Fin M) (Fin nb) ℂ) :
    runEnergy svd o free h1 ecore nchol size order chol psi θ φ φ' χ χ' = none := by
  have : ∀ t : Trial M na nb,
      trialEnergy o h1 ecore (θ 0) (orbA M na psi) (orbB M na nb psi) t = none := by
    intro t
    unfold trialEnergy localEnergy
    rcases hx with hx | hx <;> simp [hst, hp, hx]
  simp only [runEnergy, this]
  simp

/-- **C115**: and they fail in free projection. -/
theorem runEnergy_pno_free (svd : SVD M) (o : Opts) (hst : o.stochastic = false) (hp : o.pno = true)
    (h1 : Fin 2 → Matrix (Fin M) (Fin M) ℂ) (ecore : ℂ) (nchol size : Nat)
    (order : List (Nat × Nat)) (chol : Nat → Nat → Nat → ℂ)
    (psi : Nat → Nat → Nat → ℂ) (θ : Fin 3 → Nat → Nat → Bool)
    (φ φ' : Matrix (Fin M) (Fin na) ℂ) (χ χ' : Matrix (Fin M) (Fin nb) ℂ) :
    runEnergy svd o true h1 ecore nchol size order chol psi θ φ φ' χ χ' = none := by
  have : ∀ (G : Fin 2 → Matrix (Fin M) (Fin M) ℂ) (g : Half M na nb) ref rchol eri,
      walkerEnergy o h1 G ecore g (θ 2) ref rchol eri none = none := by
    intro G g ref rchol eri
    have : ∀ c0 : Option (Ref M na nb), pnoEnergy h1 G ecore g c0 none = none := by
      intro c0; cases c0 <;> rfl
    unfold walkerEnergy localEnergy
    cases o.exact <;> cases o.control <;> simp [hst, hp, this]
  simp only [runEnergy, if_true, this]
  simp

/-- **C115**: with several determinants, control variates fail in the set-up, and so do pair natural
orbitals with stored integrals. -/
theorem setupTrial_many (svd : SVD M) (o : Opts) (na nb nchol ndets size : Nat) (hd : 2 ≤ ndets)
    (order : List (Nat × Nat)) (chol : Nat → Nat → Nat → ℂ) (psi : Nat → Nat → Nat → ℂ) :
    (setupTrial svd o na nb nchol ndets size order chol psi).isSome =
      (!o.control && !(o.exact && o.pno)) := by
  have loop : ∀ (row : Nat → Nat → ℂ) (n : Nat), ∃ e, eriLoop false row n = some (some e) := by
    intro row n
    induction n with
    | zero => exact ⟨_, rfl⟩
    | succ n ih =>
      obtain ⟨e, he⟩ := ih
      exact ⟨fun d k => if d = n then row n k else e d k, by simp [eriLoop, he]⟩
  have loopP : ∀ (row : Nat → Nat → ℂ) (n : Nat), eriLoop true row (n + 2) = none := by
    intro row n
    induction n with
    | zero => rfl
    | succ n ih => rw [eriLoop, ih]
  have h1 : ndets ≠ 1 := by omega
  obtain ⟨n, rfl⟩ : ∃ n, ndets = n + 2 := ⟨ndets - 2, by omega⟩
  unfold setupTrial
  cases hc : o.control <;> cases hx : o.exact <;> cases hp : o.pno <;> simp [loopP]
  all_goals
    obtain ⟨e, he⟩ := loop (fun i => eriRow M na nb nchol chol (psi i)) (n + 2)
    simp [he]

end Verif.LocalOpts
