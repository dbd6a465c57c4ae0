import Verif.Fields.Minor
import Verif.Lattice.Props

/-!
# Hopping matrices that keep amplitudes positive

One electron on any lattice, chains with open ends, and rings with an odd number of electrons.
-/

namespace Verif.Fields

open Matrix Finset

variable {m k : Nat}

theorem sort_of_mono {f : Fin k → Fin m} (hf : StrictMono f) {J : Ordered m k} {σ : Equiv.Perm (Fin k)} (h : f = J.1 ∘ σ) : σ = 1 :=
  ((ordered_unique (σ := 1) hf J.2 (by simpa using h)).2).symm

/-- A hop to a neighbouring site keeps the order. -/
theorem hop_mono {I : Fin k → Fin m} (hI : StrictMono I) {a : Fin k} {j : Fin m} (hj : (I a).val + 1 = j.val ∨ j.val + 1 = (I a).val)
    (hinj : Function.Injective (Function.update I a j)) : StrictMono (Function.update I a j) := by
  intro b c hbc
  have hne : Function.update I a j b ≠ Function.update I a j c := hinj.ne hbc.ne
  by_cases hb : b = a
  · subst hb
    rw [Function.update_self, Function.update_of_ne hbc.ne'] at *
    have := hI hbc
    rw [Fin.lt_def] at *
    have h2 : j.val ≠ (I c).val := fun e => hne (Fin.ext e)
    omega
  · by_cases hc : c = a
    · subst hc
      rw [Function.update_self, Function.update_of_ne hb] at *
      have := hI hbc
      rw [Fin.lt_def] at *
      have h2 : (I b).val ≠ j.val := fun e => hne (Fin.ext e)
      omega
    · rw [Function.update_of_ne hb, Function.update_of_ne hc]
      exact hI hbc

/-- One electron on any lattice. -/
theorem hops_one {T : Matrix (Fin m) (Fin m) ℂ} (hr : ∀ i j, (T i j).im = 0) (ho : ∀ i j, i ≠ j → (T i j).re ≤ 0) : Hops T 1 := by
  refine ⟨hr, fun I J a j σ hj _ => ?_⟩
  rw [Subsingleton.elim σ 1]
  simpa using ho _ _ hj.symm

/-- No electrons. -/
theorem hops_zero {T : Matrix (Fin m) (Fin m) ℂ} (hr : ∀ i j, (T i j).im = 0) : Hops T 0 := ⟨hr, fun _ _ a => a.elim0⟩

/-- A chain with open ends and any number of electrons. -/
theorem hops_chain {T : Matrix (Fin m) (Fin m) ℂ} (hr : ∀ i j, (T i j).im = 0) (ho : ∀ i j, i ≠ j → (T i j).re ≤ 0)
    (hn : ∀ i j : Fin m, i ≠ j → T i j ≠ 0 → i.val + 1 = j.val ∨ j.val + 1 = i.val) (k : Nat) : Hops T k := by
  refine ⟨hr, fun I J a j σ hj e => ?_⟩
  by_cases h0 : T (I.1 a) j = 0
  · rw [h0]; simp
  · have hm : StrictMono (Function.update I.1 a j) := by
      refine hop_mono I.2 (hn _ _ hj.symm h0) ?_
      rw [e]
      exact J.2.injective.comp σ.injective
    rw [sort_of_mono hm e]
    simpa using ho _ _ hj.symm

/-- A hop of the last electron to the first site. -/
theorem hop_last {n : Nat} {I : Fin (n + 1) → Fin m} (hI : StrictMono I) {a : Fin (n + 1)} {j : Fin m} (hj : j.val = 0)
    (hl : (I a).val + 1 = m) (hinj : Function.Injective (Function.update I a j)) :
    StrictMono (Function.update I a j ∘ (finRotate (n + 1)).symm) := by
  have ha : a = Fin.last n := by
    by_contra hne
    have := hI (lt_of_le_of_ne (Fin.le_last a) hne)
    rw [Fin.lt_def] at this
    have := (I (Fin.last n)).isLt
    omega
  subst ha
  have hrot : ∀ c : Fin (n + 1), c = (0 : Fin (n + 1)) ∧ (finRotate (n + 1)).symm c = Fin.last n ∨
      ∃ d : Fin n, c = d.succ ∧ (finRotate (n + 1)).symm c = d.castSucc := by
    intro c
    refine Fin.cases ?_ (fun d => ?_) c
    · left
      refine ⟨rfl, ?_⟩
      rw [Equiv.symm_apply_eq]
      exact finRotate_last.symm
    · right
      refine ⟨d, rfl, ?_⟩
      rw [Equiv.symm_apply_eq, finRotate_succ_apply]
      exact (Fin.coeSucc_eq_succ).symm
  intro b c hbc
  rw [Function.comp_apply, Function.comp_apply]
  have hne : Function.update I (Fin.last n) j ((finRotate (n + 1)).symm b) ≠ Function.update I (Fin.last n) j ((finRotate (n + 1)).symm c) :=
    hinj.ne ((finRotate (n + 1)).symm.injective.ne hbc.ne)
  rcases hrot c with ⟨hc, hc'⟩ | ⟨d, hc, hc'⟩
  · rw [hc] at hbc
    exact absurd hbc (Fin.not_lt_zero b)
  · rw [hc'] at hne ⊢
    rw [Function.update_of_ne (Fin.castSucc_lt_last d).ne] at hne ⊢
    rcases hrot b with ⟨hb, hb'⟩ | ⟨d', hb, hb'⟩
    · rw [hb', Function.update_self] at hne ⊢
      rw [Fin.lt_def]
      have h2 : j.val ≠ (I d.castSucc).val := fun e => hne (Fin.ext e)
      omega
    · rw [hb', Function.update_of_ne (Fin.castSucc_lt_last d').ne]
      refine hI ?_
      rw [hb, hc] at hbc
      exact Fin.castSucc_lt_castSucc_iff.2 (Fin.succ_lt_succ_iff.1 hbc)

/-- A hop of the first electron to the last site. -/
theorem hop_first {n : Nat} {I : Fin (n + 1) → Fin m} (hI : StrictMono I) {a : Fin (n + 1)} {j : Fin m} (hj : j.val + 1 = m)
    (hl : (I a).val = 0) (hinj : Function.Injective (Function.update I a j)) :
    StrictMono (Function.update I a j ∘ finRotate (n + 1)) := by
  have ha : a = 0 := by
    by_contra hne
    have := hI (Fin.pos_iff_ne_zero.2 hne)
    rw [Fin.lt_def] at this
    omega
  subst ha
  have hrot : ∀ c : Fin (n + 1), c = Fin.last n ∧ finRotate (n + 1) c = 0 ∨
      ∃ d : Fin n, c = d.castSucc ∧ finRotate (n + 1) c = d.succ := by
    intro c
    refine Fin.lastCases ?_ (fun d => ?_) c
    · exact Or.inl ⟨rfl, finRotate_last⟩
    · right
      refine ⟨d, rfl, ?_⟩
      rw [finRotate_succ_apply]
      exact Fin.coeSucc_eq_succ
  intro b c hbc
  rw [Function.comp_apply, Function.comp_apply]
  have hne : Function.update I 0 j (finRotate (n + 1) b) ≠ Function.update I 0 j (finRotate (n + 1) c) :=
    hinj.ne ((finRotate (n + 1)).injective.ne hbc.ne)
  rcases hrot b with ⟨hb, hb'⟩ | ⟨d, hb, hb'⟩
  · rw [hb] at hbc
    exact absurd hbc (not_lt.2 (Fin.le_last c))
  · rw [hb'] at hne ⊢
    rw [Function.update_of_ne (Fin.succ_ne_zero d)] at hne ⊢
    rcases hrot c with ⟨hc, hc'⟩ | ⟨d', hc, hc'⟩
    · rw [hc', Function.update_self] at hne ⊢
      rw [Fin.lt_def]
      have h2 : (I d.succ).val ≠ j.val := fun e => hne (Fin.ext e)
      have := (I d.succ).isLt
      omega
    · rw [hc', Function.update_of_ne (Fin.succ_ne_zero d')]
      refine hI ?_
      rw [hb, hc] at hbc
      exact Fin.succ_lt_succ_iff.2 (Fin.castSucc_lt_castSucc_iff.1 hbc)

/-- A ring with an odd number of electrons. -/
theorem hops_ring {T : Matrix (Fin m) (Fin m) ℂ} (hr : ∀ i j, (T i j).im = 0) (ho : ∀ i j, i ≠ j → (T i j).re ≤ 0)
    (hn : ∀ i j : Fin m, i ≠ j → T i j ≠ 0 → (i.val + 1 = j.val ∨ j.val + 1 = i.val) ∨ (i.val = 0 ∧ j.val + 1 = m) ∨
      (j.val = 0 ∧ i.val + 1 = m)) (hk : Odd k) : Hops T k := by
  obtain ⟨r, rfl⟩ := hk
  refine ⟨hr, fun I J a j σ hj e => ?_⟩
  have hinj : Function.Injective (Function.update I.1 a j) := by
    rw [e]
    exact J.2.injective.comp σ.injective
  have hsig : ((Equiv.Perm.sign (finRotate (2 * r + 1)) : ℤˣ) : ℤ) = 1 := by
    rw [sign_finRotate]
    simp
  suffices hs : T (I.1 a) j ≠ 0 → ((Equiv.Perm.sign σ : ℤˣ) : ℤ) = 1 by
    by_cases h0 : T (I.1 a) j = 0
    · rw [h0]; simp
    · rw [hs h0]
      simpa using ho _ _ hj.symm
  intro h0
  rcases hn _ _ hj.symm h0 with h | ⟨h1, h2⟩ | ⟨h1, h2⟩
  · rw [sort_of_mono (hop_mono I.2 h hinj) e]
    simp
  · have hm := hop_first I.2 h2 h1 hinj
    have := sort_of_mono (J := J) (σ := σ * finRotate (2 * r + 1)) hm (by rw [e]; rfl)
    have h3 := congrArg (fun τ => ((Equiv.Perm.sign τ : ℤˣ) : ℤ)) this
    simp only [map_mul, map_one, Units.val_mul, hsig, mul_one] at h3
    exact h3
  · have hm := hop_last I.2 h1 h2 hinj
    have := sort_of_mono (J := J) (σ := σ * (finRotate (2 * r + 1))⁻¹) hm (by rw [e]; rfl)
    have h3 := congrArg (fun τ => ((Equiv.Perm.sign τ : ℤˣ) : ℤ)) this
    simp only [map_mul, map_one, map_inv, Units.val_mul] at h3
    have h4 : (((Equiv.Perm.sign (finRotate (2 * r + 1)))⁻¹ : ℤˣ) : ℤ) = 1 := by
      rw [Int.units_inv_eq_self, hsig]
    rw [h4, mul_one] at h3
    exact h3

/-! ## The hopping matrices of the systems -/

open Verif.Lattice (kinetic kinetic_apply kinetic_chain ring1 bphase upper phase)

theorem ring1_nonneg (n : Nat) {p : ℂ} (hp : p = 0 ∨ p = 1) (x x' : Nat) : ∃ r : ℝ, 0 ≤ r ∧ ring1 n p x x' = r := by
  have hp' : ∃ q : ℝ, 0 ≤ q ∧ p = q := by
    rcases hp with h | h
    · exact ⟨0, le_rfl, by simp [h]⟩
    · exact ⟨1, zero_le_one, by simp [h]⟩
  obtain ⟨q, hq, e⟩ := hp'
  refine ⟨(if x' = x + 1 then 1 else 0) + (if x = x' + 1 then 1 else 0) + (if x = 0 ∧ x' + 1 = n then q else 0) +
    (if x' = 0 ∧ x + 1 = n then q else 0), by positivity, ?_⟩
  rw [ring1, e]
  push_cast
  have : star (q : ℂ) = q := Complex.conj_ofReal q
  rw [this]
  simp only [apply_ite Complex.ofReal, Complex.ofReal_one, Complex.ofReal_zero]

theorem kinetic_entry (t : ℝ) (ht : 0 ≤ t) (nx : Nat) (hn : 2 ≤ nx) (ks : Option (List ℝ)) (xpbc ypbc : Bool)
    (hp : bphase ks 0 xpbc = 0 ∨ bphase ks 0 xpbc = 1) (i j : Fin (1 * nx)) :
    (kinetic t nx 1 ks xpbc ypbc i j).im = 0 ∧ (kinetic t nx 1 ks xpbc ypbc i j).re ≤ 0 := by
  obtain ⟨r, hr, e⟩ := ring1_nonneg nx hp i j
  rw [kinetic_chain t nx hn, e, ← Complex.ofReal_neg, ← Complex.ofReal_mul]
  exact ⟨Complex.ofReal_im _, by rw [Complex.ofReal_re]; nlinarith [mul_nonneg ht hr]⟩

/-- Chain with `xpbc` false. -/
theorem hops_open (t : ℝ) (ht : 0 ≤ t) (nx : Nat) (hn : 2 ≤ nx) (ks : Option (List ℝ)) (ypbc : Bool) (k : Nat) :
    Hops (kinetic t nx 1 ks false ypbc) k := by
  have hb : bphase ks 0 false = 0 := rfl
  refine hops_chain (fun i j => (kinetic_entry t ht nx hn ks false ypbc (Or.inl hb) i j).1)
    (fun i j _ => (kinetic_entry t ht nx hn ks false ypbc (Or.inl hb) i j).2) (fun i j _ h0 => ?_) k
  by_contra hcon
  push Not at hcon
  refine h0 ?_
  rw [kinetic_chain t nx hn, hb, ring1, if_neg (fun h => hcon.1 h.symm), if_neg (fun h => hcon.2 h.symm)]
  simp

/-- Ring without twist and an odd number of electrons. -/
theorem hops_closed (t : ℝ) (ht : 0 ≤ t) (nx : Nat) (hn : 2 ≤ nx) (ypbc : Bool) (hk : Odd k) :
    Hops (kinetic t nx 1 none true ypbc) k := by
  have hb : bphase none 0 true = 1 := rfl
  refine hops_ring (fun i j => (kinetic_entry t ht nx hn none true ypbc (Or.inr hb) i j).1)
    (fun i j _ => (kinetic_entry t ht nx hn none true ypbc (Or.inr hb) i j).2) (fun i j _ h0 => ?_) hk
  by_contra hcon
  push Not at hcon
  obtain ⟨⟨h1, h2⟩, h3, h4⟩ := hcon
  refine h0 ?_
  rw [kinetic_chain t nx hn, hb, ring1, if_neg (fun h => h1 h.symm), if_neg (fun h => h2 h.symm), if_neg (fun h => h3 h.1 (by omega)),
    if_neg (fun h => h4 h.1 (by omega))]
  simp

/-- One electron on a chain or a rectangle of any size without twist. -/
theorem hops_lattice (t : ℝ) (ht : 0 ≤ t) (nx ny : Nat) (xpbc ypbc : Bool) : Hops (kinetic t nx ny none xpbc ypbc) 1 := by
  have hu : ∀ i j, ∃ r : ℝ, r ≤ 0 ∧ upper t nx ny none xpbc ypbc i j = r := by
    intro i j
    simp only [upper, phase, mul_one]
    have h2 : ∀ (P Q R : Prop) [Decidable P] [Decidable Q] [Decidable R], ∃ r : ℝ, r ≤ 0 ∧
        (if P then -(t : ℂ) else if Q then -(t : ℂ) else if R then -(t : ℂ) else 0) = r := by
      intro P Q R _ _ _
      split_ifs
      · exact ⟨-t, by linarith, by push_cast; rfl⟩
      · exact ⟨-t, by linarith, by push_cast; rfl⟩
      · exact ⟨-t, by linarith, by push_cast; rfl⟩
      · exact ⟨0, le_rfl, by simp⟩
    obtain ⟨r, hr, e⟩ := h2 (ny = 1 ∧ Lattice.absDiff (Lattice.decode nx ny i) (Lattice.decode nx ny j) = [nx - 1] ∧ xpbc = true)
      (Lattice.allEq (Lattice.absDiff (Lattice.decode nx ny i) (Lattice.decode nx ny j)) (nx - 1) 0 ∧ xpbc = true)
      (Lattice.allEq (Lattice.absDiff (Lattice.decode nx ny i) (Lattice.decode nx ny j)) 0 (ny - 1) ∧ ypbc = true)
    rw [e]
    split_ifs
    · exact ⟨-t + r, by linarith, by push_cast; rfl⟩
    · exact ⟨r, hr, by simp⟩
  have hk : ∀ i j, ∃ r : ℝ, r ≤ 0 ∧ kinetic t nx ny none xpbc ypbc i j = r := by
    intro i j
    obtain ⟨r, hr, e⟩ := hu i j
    obtain ⟨r', hr', e'⟩ := hu j i
    rw [kinetic_apply, e, e']
    refine ⟨(if i < j then r else 0) + if j < i then r' else 0, by split_ifs <;> linarith, ?_⟩
    rw [Complex.ofReal_add]
    congr 1
    · split_ifs <;> simp
    · split_ifs
      · exact Complex.conj_ofReal r'
      · simp
  refine hops_one (fun i j => ?_) (fun i j _ => ?_)
  · obtain ⟨r, _, e⟩ := hk i j
    rw [e]; exact Complex.ofReal_im r
  · obtain ⟨r, hr, e⟩ := hk i j
    rw [e]; exact hr

end Verif.Fields
