import Verif.Itcf.Props
import Mathlib.Tactic.NormNum

/-!
# C94: where the imaginary-time Green's functions are wrong, and the average over walkers
-/

namespace Verif.Itcf

open Matrix
open Verif.Slater (QR QRSpec FullRank gab linReortho backLoop someQR someQR_spec)

theorem gab_one {nb : Nat} (A B : Matrix (Fin nb) (Fin 1) ℂ) (i j : Fin nb) :
    gab A B i j = B i 0 * ((∑ p, star (A p 0) * B p 0)⁻¹ * star (A j 0)) := by
  have h : (Aᴴ * B)⁻¹ = Matrix.of fun _ _ => (∑ p, star (A p 0) * B p 0)⁻¹ := by
    have : Aᴴ * B = Matrix.of fun _ _ => ∑ p, star (A p 0) * B p 0 := by
      ext a b
      rw [Subsingleton.elim a 0, Subsingleton.elim b 0]
      simp [Matrix.mul_apply]
    rw [this, Matrix.inv_def, Matrix.adjugate_subsingleton, Matrix.det_fin_one, Ring.inverse_eq_inv']
    ext a b
    rw [Subsingleton.elim a 0, Subsingleton.elim b 0]
    simp
  rw [gab, h]
  simp [Matrix.mul_apply]

/-! ## The lesser function of the down spin -/

/-- An up electron on the first and a down electron on the second of two sites. -/
def neel : Orbs 2 fun _ => 1 := fun s => Matrix.of fun p _ => if p = s then 1 else 0

theorem neel_good : Good [fun _ => 1] neel neel := by
  refine ⟨fun s B hB => ?_, fun s => ?_, fun s => ?_, fun s => ?_⟩
  · rw [List.mem_singleton] at hB
    subst hB
    simp
  all_goals
    simp only [FullRank, V, List.drop_zero, List.map_cons, List.map_nil, List.reverse_singleton, List.prod_singleton,
      Matrix.conjTranspose_one, Matrix.one_mul]
    rw [Matrix.det_fin_one]
    fin_cases s <;> simp [Matrix.mul_apply, neel]

/-- **C94 fails** for the down spin: with the two electrons on different sites and nothing happening in time, the code gives no
down electron at all. -/
theorem down_wrong (qr : QR 2) (nstblz : Nat) : ∃ g, stable code qr nstblz neel neel [fun _ => 1] 1 = some g ∧
    g.2 1 = 0 ∧ ∀ gr, ¬ Correct [fun _ => 1] neel neel 1 1 gr (g.2 1) := by
  have hgab : ∀ s, gab (neel s) (neel s) = Matrix.of fun i j => if i = s ∧ j = s then 1 else 0 := by
    intro s
    ext i j
    rw [gab_one]
    fin_cases s <;> fin_cases i <;> fin_cases j <;> simp [neel]
  have hst : backStore qr nstblz 0 ([fun _ => 1] : List (Fin 2 → Mat 2)).reverse neel = [neel] := by
    simp [backStore]
  have h1 : stable code qr nstblz neel neel [fun _ => 1] 1 =
      some (fun s => 1 - gab (neel s) (neel s), ![gab (neel 0) (neel 0), gab (neel 0) (neel 0) * gab (neel 1) (neel 1)]) := by
    rw [stable, stateAt, stateAt, Option.bind_some, iter]
    simp only [hst, start, initialG, pyGet, code, incrementStable]
    simp
  have hz : gab (neel 0) (neel 0) * gab (neel 1) (neel 1) = 0 := by
    rw [hgab, hgab]
    ext i j
    fin_cases i <;> fin_cases j <;> simp [Matrix.mul_apply]
  refine ⟨_, h1, hz, fun gr hc => ?_⟩
  have hc' : Correct [fun _ => 1] neel neel 1 1 gr (gab (neel 0) (neel 0) * gab (neel 1) (neel 1)) := hc
  rw [hz] at hc'
  have := hc'.ls (k := 0) rfl 1 1
  rw [lesser_eq _ _ _ (VU _ 1 1) (U_det (neel_good.inv 1) 1) _ _ (neel_good.ovl 1)] at this
  have e : V ([fun _ => 1] : List (Fin 2 → Mat 2)) 0 1 = 1 := by simp [V]
  have e2 : U ([fun _ => 1] : List (Fin 2 → Mat 2)) 1 1 = 1 := by simp [U]
  simp only [e, e2, Matrix.conjTranspose_one, Matrix.one_mul, inv_one, Matrix.mul_one] at this
  rw [hgab 1] at this
  simp at this

/-! ## Times after the first slice -/

/-- One electron of each spin on the first site. -/
def first : Orbs 2 fun _ => 1 := fun _ => Matrix.of fun p _ => if p = 0 then 1 else 0

/-- A shear. -/
def sh : Mat 2 := !![1, 1; 0, 1]

/-- Two propagators: a shear and nothing. -/
def shear : List (Fin 2 → Mat 2) := [fun _ => sh, fun _ => 1]

theorem shear_V (s : Fin 2) : V shear 0 s = sh := by simp [V, shear]

theorem shear_U (s : Fin 2) : U shear 2 s = sh := by simp [U, shear]

theorem shear_good : Good shear first first := by
  refine ⟨fun s B hB => ?_, fun s => ?_, fun s => ?_, fun s => ?_⟩
  · simp only [shear, List.mem_cons, List.not_mem_nil, or_false] at hB
    rcases hB with rfl | rfl <;> simp [sh, Matrix.det_fin_two_of]
  · rw [FullRank, Matrix.det_fin_one]; simp [Matrix.mul_apply, first]
  · rw [FullRank, Matrix.det_fin_one]; simp [Matrix.mul_apply, first]
  · rw [shear_V, Matrix.det_fin_one]
    simp [Matrix.mul_apply, first, sh, Fin.sum_univ_two]

/-- **C94 fails** from the second slice on: the left orbitals are those of the slice before. -/
theorem later_wrong (qr : QR 2) (nstblz : Nat) (hs : 2 ≤ nstblz) : ∃ g, stable code qr nstblz first first shear 2 = some g ∧
    ∀ ls, ¬ Correct shear first first 2 0 (g.1 0) ls := by
  have hm : ¬ (1 % nstblz = 0) := by rw [Nat.mod_eq_of_lt (by omega)]; decide
  have hst : backStore qr nstblz 0 shear.reverse first = [first, fun s => shᴴ * first s] := by
    simp only [backStore, shear, List.reverse_cons, List.reverse_nil, List.nil_append, List.cons_append]
    simp [hm]
  have h1 : ∃ g, stable code qr nstblz first first shear 2 = some g ∧
      g.1 0 = (1 - gab (shᴴ * first 0) (sh * first 0)) * (sh * (1 - gab (shᴴ * first 0) (first 0))) := by
    have hlast : (backStore qr nstblz 0 shear.reverse first).getLastD first = fun s => shᴴ * first s := by rw [hst]; rfl
    have hcb : code.back = 1 := rfl
    have hB0 : shear[0]? = some fun _ => sh := rfl
    have hB1 : shear[1]? = some fun _ => 1 := rfl
    have hp0 : pyGet [first, fun s => shᴴ * first s] (((2 : ℕ) : ℤ) - (0 : ℕ) - (1 : ℕ)) = some fun s => shᴴ * first s := rfl
    have hp1 : pyGet [first, fun s => shᴴ * first s] (((2 : ℕ) : ℤ) - (1 : ℕ) - (1 : ℕ)) = some first := rfl
    have s1 : stateAt code qr nstblz first first shear 1 = iter code qr nstblz first shear 0 (start qr nstblz first first shear) :=
      rfl
    have s2 : stateAt code qr nstblz first first shear 2 =
        (stateAt code qr nstblz first first shear 1).bind (iter code qr nstblz first shear 1) := rfl
    simp only [iter, hB0, hst, List.length_cons, List.length_nil, zero_add, Nat.reduceAdd, hcb] at s1
    rw [hp0] at s1
    rw [s1] at s2
    simp only [Option.bind_some, iter, hB1, hst, List.length_cons, List.length_nil, zero_add, Nat.reduceAdd, hcb] at s2
    rw [hp1] at s2
    refine ⟨_, by rw [stable, s2]; rfl, ?_⟩
    simp only [incrementStable, start, hlast, initialG]
    simp [code, Matrix.mul_assoc]
  obtain ⟨g, h1, h2⟩ := h1
  refine ⟨g, h1, fun ls hc => ?_⟩
  have := hc.gr 0 1
  rw [greater_eq _ _ _ (VU _ 2 0) _ _ (shear_good.ovl 0), shear_V, shear_U, h2] at this
  simp only [Matrix.mul_apply, Matrix.sub_apply, gab_one, Fin.sum_univ_two] at this
  simp [first, sh, Matrix.mul_apply, Fin.sum_univ_two] at this

/-! ## The average -/

/-- The entry written does not depend on how the walkers are spread over the processes or ordered. -/
theorem estimate_perm {nb : Nat} (restore : Bool) (r1 r2 : List (List (Sample nb))) (h : r1.flatten.Perm r2.flatten)
    (i j : Fin nb) : estimate restore r1 i j = estimate restore r2 i j := by
  have hf : ∀ (f : Sample nb → ℂ) (l : List (Sample nb)) (a : ℂ), l.foldl (fun a x => a + f x) a = a + (l.map f).sum := by
    intro f l
    induction l with
    | nil => simp
    | cons x l ih => intro a; simp [ih, add_assoc]
  have hs : ∀ (f : Sample nb → ℂ) (r : List (List (Sample nb))),
      (r.map fun l => l.foldl (fun a x => a + f x) 0).sum = (r.flatten.map f).sum := by
    intro f r
    simp only [hf, zero_add]
    induction r with
    | nil => simp
    | cons l r ih => simp [ih]
  simp only [estimate, hs (fun x => wfac restore x * ((x.G i j).re : ℂ)), hs (fun x => wfac restore x)]
  rw [(h.map _).sum_eq, (h.map (fun x => wfac restore x)).sum_eq]

/-- **C94 (average)**: walkers that agree on a real value give that value, whatever their weights. -/
theorem estimate_const {nb : Nat} (restore : Bool) (r : List (List (Sample nb))) (i j : Fin nb) (x : ℝ)
    (hx : ∀ l ∈ r, ∀ w ∈ l, w.G i j = x) (h0 : (r.flatten.map (wfac restore)).sum ≠ 0) : estimate restore r i j = x := by
  have hp := estimate_perm restore r [r.flatten] (by simp) i j
  have hf : ∀ (f : Sample nb → ℂ) (l : List (Sample nb)) (a : ℂ), l.foldl (fun a x => a + f x) a = a + (l.map f).sum := by
    intro f l
    induction l with
    | nil => simp
    | cons x l ih => intro a; simp [ih, add_assoc]
  rw [hp, estimate]
  simp only [List.map_cons, List.map_nil, List.sum_singleton, hf (fun x => wfac restore x * ((x.G i j).re : ℂ)),
    hf (fun x => wfac restore x), zero_add]
  have : (r.flatten.map fun w => wfac restore w * ((w.G i j).re : ℂ)) = (r.flatten.map fun w => wfac restore w * (x : ℂ)) := by
    refine List.map_congr_left fun w hw => ?_
    obtain ⟨l, hl, hw⟩ := List.mem_flatten.1 hw
    rw [hx l hl w hw, Complex.ofReal_re]
  rw [this, List.sum_map_mul_right, mul_div_cancel_left₀ _ h0]

/-- **C94**: restoring undoes the phaseless constraint.  If the weight and the two factors are products over the steps of what the
propagation keeps (continuous.py 282-285: `|I| cos`, `I / |I|` and `cos`), the restored weight is the product of the `I`. -/
theorem wfac_restores {nb : Nat} (fs : List (ℂ × ℝ)) (h : ∀ f ∈ fs, f.1 ≠ 0 ∧ f.2 ≠ 0) (x : Sample nb)
    (hw : x.weight = (fs.map fun f => (‖f.1‖ : ℂ) * (f.2 : ℂ)).prod)
    (hf : x.wfac = ((fs.map fun f => f.1 / (‖f.1‖ : ℂ)).prod, (fs.map fun f => (f.2 : ℂ)).prod)) :
    wfac true x = (fs.map (·.1)).prod ∧ wfac false x = x.weight := by
  refine ⟨?_, rfl⟩
  rw [wfac, if_pos rfl, hw, hf]
  clear hw hf
  induction fs with
  | nil => simp
  | cons f fs ih =>
    have h1 := h f List.mem_cons_self
    have ih := ih fun g hg => h g (List.mem_cons_of_mem _ hg)
    simp only [List.map_cons, List.prod_cons] at ih ⊢
    rw [← ih]
    have a1 : (‖f.1‖ : ℂ) ≠ 0 := Complex.ofReal_ne_zero.mpr (norm_ne_zero_iff.2 h1.1)
    have a2 : (f.2 : ℂ) ≠ 0 := Complex.ofReal_ne_zero.mpr h1.2
    by_cases h0 : (fs.map fun f => (f.2 : ℂ)).prod = 0
    · rw [h0]
      simp
    · field_simp

example : ∃ (fs : List (ℂ × ℝ)) (x : Sample 1), (∀ f ∈ fs, f.1 ≠ 0 ∧ f.2 ≠ 0) ∧
    x.weight = (fs.map fun f => (‖f.1‖ : ℂ) * (f.2 : ℂ)).prod ∧
    x.wfac = ((fs.map fun f => f.1 / (‖f.1‖ : ℂ)).prod, (fs.map fun f => (f.2 : ℂ)).prod) ∧ wfac true x ≠ x.weight := by
  refine ⟨[(-2, 1 / 2)], ⟨1, (-1, 1 / 2), 0⟩, ?_, ?_, ?_, ?_⟩
  · simp
  · simp
  · simp
  · simp [wfac]
    norm_num

/-! ## Non-vacuity -/

example : ∃ g, stable right (someQR 2) 1 first first shear 2 = some g ∧
    ∀ s, Correct shear first first 2 s (g.1 s) (g.2 s) :=
  stable_correct (someQR_spec 2) shear_good 2 (by simp [shear])

end Verif.Itcf
